import Verif.Props.Retry
/-
C55: an inner node is cleared away only if it looked (nearly) empty to a removal.
-/
set_option linter.unusedSectionVars false
namespace Contrie
open scoped List
variable {K P : Type} [DecidableEq K] {cfg : Config K P}

/-- Cell `n` of inner node `a` is condemned. -/
def Mem.CondAt (m : Mem P) (a : Nat) (n : Fin 16) : Prop := ∃ c p, m.mem a = some (.inner c p) ∧ (c n).cond = true

theorem Mem.CondAt.of_alloc {m : Mem P} {a : Nat} {n : Fin 16} {nd : Node P} (h : (m.alloc nd).CondAt a n)
    (hn : ∀ c p n, nd = .inner c p → (c n).cond = false) : m.CondAt a n := by
  obtain ⟨c, p, h1, h2⟩ := h
  simp only [Mem.alloc, upd] at h1
  split at h1
  · rw [hn c p n (by simpa using h1)] at h2; cases h2
  · exact ⟨c, p, h1, h2⟩

theorem Mem.CondAt.of_write {m : Mem P} {a : Nat} {n : Fin 16} {w : Word} {l : Loc} (h : (m.write w l).CondAt a n) :
    m.CondAt a n ∨ (w.cond = true ∧ l = .slot a n) := by
  obtain ⟨c, p, h1, h2⟩ := h
  cases l with
  | root => exact .inl ⟨c, p, h1, h2⟩
  | slot b i =>
    simp only [Mem.write] at h1
    split at h1
    · next cells path hm =>
      simp only [upd] at h1
      split at h1
      · next e =>
        subst e
        simp only [Option.some.injEq, Node.inner.injEq] at h1
        rw [← h1.1] at h2
        simp only [upd] at h2
        split at h2
        · next e => subst e; exact .inr ⟨h2, rfl⟩
        · exact .inl ⟨cells, path, hm, h2⟩
      · exact .inl ⟨c, p, h1, h2⟩
    · exact .inl ⟨c, p, h1, h2⟩

/-- The call is not about to publish a condemned word. -/
def PC.tidy : PC K P → Prop
  | .travCas _ _ _ _ _ _ _ new _ => ∀ c p n, new = .inner c p → (c n).cond = false
  | .prune _ _ _ acc _ => (∀ n, (acc.newChild n).cond = false) ∧ ∀ w, acc.lastLeaf = some w → w.cond = false
  | .pruneCas _ _ acc _ => (∀ n, (acc.newChild n).cond = false) ∧ ∀ w, acc.lastLeaf = some w → w.cond = false
  | _ => True

theorem enterPrune_tidy {p : Loc} {ch : Word} {k : Cont K P} {pc : PC K P} {ran : Bool} (h : enterPrune p ch k = .goto pc ran) : pc.tidy := by
  simp only [enterPrune] at h
  repeat' split at h
  all_goals first
    | (cases h; done)
    | (cases h; exact ⟨fun _ => rfl, fun w e => by cases e⟩)

theorem enterClean_tidy {d : P} {r : Nat} {l : List (Loc × Word)} {pc : PC K P} {ran : Bool} (h : enterClean d r l = .goto pc ran) : pc.tidy := by
  cases l with
  | nil => cases h
  | cons y l => simp only [enterClean] at h; split at h <;> cases h; trivial

theorem afterPrune_tidy {r : PruneResult} {k : Cont K P} {pc : PC K P} {ran : Bool} (h : afterPrune r k = .goto pc ran) : pc.tidy := by
  cases k with
  | trav => cases h; trivial
  | rem => cases h; trivial
  | clean d r l =>
    simp only [afterPrune] at h
    split at h
    · cases h
    · exact enterClean_tidy h

theorem push_tidy {m : Mem P} {acc acc' : PAcc} {i : Fin 16} {gc : Word} (h : acc.push m i gc = .ok acc')
    (h1 : (∀ n, (acc.newChild n).cond = false) ∧ ∀ w, acc.lastLeaf = some w → w.cond = false) :
    (∀ n, (acc'.newChild n).cond = false) ∧ ∀ w, acc'.lastLeaf = some w → w.cond = false := by
  have key : ∀ n, (upd acc.newChild i gc.erase n).cond = false := by
    intro n; simp only [upd]; split
    · rfl
    · exact h1.1 n
  simp only [PAcc.push] at h
  repeat' split at h
  all_goals first
    | (cases h; done)
    | (cases h; exact ⟨key, h1.2⟩)
    | (cases h; exact ⟨key, fun w e => by cases e; rfl⟩)

theorem tick_tidy {m : Mem P} {weak : Bool} {pc pc' : PC K P} {ran : Bool} (hq : pc.tidy)
    (ht : (tick cfg m weak pc).2 = .goto pc' ran) : pc'.tidy := by
  cases pc with
  | trav st hash mode shift cur parent =>
    simp only [tick, tickTrav] at ht
    split at ht
    · cases ht
    · next w hw =>
      split at ht
      · split at ht
        · cases ht
        · exact enterPrune_tidy ht
      · next hc =>
        simp only [Bool.not_eq_true] at hc
        repeat' split at ht
        all_goals first
          | exact (finishTrav_not_goto ht).elim
          | (cases ht; done)
          | (cases ht; trivial)
          | (cases ht; intro c p n e; cases e; done)
          | (cases ht; intro c p n e; cases e; simp only [upd]; split <;> first | exact hc | rfl)
  | travCas st hash mode shift cur parent node new kind =>
    simp only [tick, tickTravCas] at ht
    repeat' split at ht
    all_goals first
      | exact (finishTrav_not_goto ht).elim
      | (cases ht; done)
      | (cases ht; trivial)
  | get key hash cur =>
    simp only [tick, tickGet] at ht
    repeat' split at ht
    all_goals (cases ht; try trivial)
  | isEmpty => cases ht
  | iterNew => cases ht; trivial
  | iterNext levels out =>
    simp only [tick, tickIterNext] at ht
    repeat' split at ht
    all_goals (cases ht; try trivial)
  | rem key shift cur levels =>
    simp only [tick, tickRem] at ht
    repeat' split at ht
    all_goals first
      | exact enterPrune_tidy ht
      | (cases ht; done)
      | (cases ht; trivial)
  | remCas key shift cur levels node new deleted =>
    simp only [tick, tickRemCas] at ht
    repeat' split at ht
    all_goals first
      | exact enterClean_tidy ht
      | (cases ht; done)
      | (cases ht; trivial)
  | count deleted ref parent child rest i cn =>
    simp only [tick, tickCount] at ht
    repeat' split at ht
    all_goals first
      | exact enterPrune_tidy ht
      | (cases ht; done)
      | (cases ht; trivial)
  | prune parent child i acc k =>
    simp only [tick, tickPrune] at ht
    repeat' split at ht
    all_goals first
      | (cases ht; done)
      | (cases ht; next he _ => exact push_tidy he hq)
      | (cases ht; next he _ _ => exact push_tidy he hq)
  | pruneCas parent child acc k =>
    simp only [tick, tickPruneCas] at ht
    repeat' split at ht
    all_goals first
      | exact afterPrune_tidy ht
      | (cases ht; done)

theorem decide_word_tidy {acc : PAcc} {w : Word} (h : acc.decide.1 = .word w) (h1 : ∀ w, acc.lastLeaf = some w → w.cond = false) :
    w.cond = false := by
  simp only [PAcc.decide] at h
  split at h
  · next e => cases h; exact h1 _ e
  · cases h; rfl
  · cases h

theorem decide_copy_cells {acc : PAcc} {c : Fin 16 → Word} (h : acc.decide.1 = .copy c) : c = acc.newChild := by
  simp only [PAcc.decide] at h
  split at h <;> cases h
  rfl

/-- A step condemns only the cell it is at in `prune`. -/
theorem tick_condAt {m : Mem P} {weak : Bool} {pc : PC K P} (hq : pc.tidy) {a : Nat} {n : Fin 16} (h : (tick cfg m weak pc).1.CondAt a n) :
    m.CondAt a n ∨ ∃ p ch acc k, pc = .prune p ch n acc k ∧ ch.ptr = some a := by
  cases pc with
  | travCas st hash mode shift cur parent node new kind =>
    have h1 : ∀ w : Word, w.cond = false → ((m.alloc new).write w cur).CondAt a n → m.CondAt a n := by
      intro w hw h
      rcases h.of_write with h | ⟨e, -⟩
      · exact h.of_alloc hq
      · rw [hw] at e; cases e
    simp only [tick, tickTravCas] at h
    repeat' split at h
    all_goals first
      | exact .inl h
      | exact .inl (h1 _ rfl h)
  | remCas key shift cur levels node new deleted =>
    have h1 : ∀ (m0 : Mem P) (w : Word), w.cond = false → (m0.write w cur).CondAt a n → m0.CondAt a n := by
      intro m0 w hw h
      rcases h.of_write with h | ⟨e, -⟩
      · exact h
      · rw [hw] at e; cases e
    have h2 : ∀ l : List P, (m.alloc (.data l)).CondAt a n → m.CondAt a n := fun l h => h.of_alloc (fun c p n e => by cases e)
    simp only [tick, tickRemCas] at h
    repeat' split at h
    all_goals first
      | exact .inl h
      | exact .inl (h1 _ _ rfl h)
      | exact .inl (h2 _ (h1 _ _ rfl h))
  | prune parent child i acc k =>
    have h1 : ∀ b (gc : Word), child.ptr = some b → (m.write gc.condemn (.slot b i)).CondAt a n → m.CondAt a n ∨ ∃ p ch acc' k', (PC.prune parent child i acc k : PC K P) = .prune p ch n acc' k' ∧ ch.ptr = some a := by
      intro b gc hb h
      rcases h.of_write with h | ⟨-, e⟩
      · exact .inl h
      · cases e; exact .inr ⟨parent, child, acc, k, rfl, hb⟩
    simp only [tick, tickPrune] at h
    split at h
    · exact .inl h
    · next b hb =>
      repeat' split at h
      all_goals first
        | exact .inl h
        | exact h1 b _ hb h
  | pruneCas parent child acc k =>
    simp only [tick, tickPruneCas] at h
    repeat' split at h
    all_goals first
      | exact .inl h
      | skip
    · next w' hd =>
      have h : (m.write w' parent).CondAt a n := h
      rcases h.of_write with h | ⟨e, -⟩
      · exact .inl h
      · rw [decide_word_tidy hd hq.2] at e; cases e
    · next cells hd =>
      have h : ((m.alloc (.inner cells _)).write ⟨some m.next, false, false⟩ parent).CondAt a n := h
      rcases h.of_write with h | ⟨e, -⟩
      · refine .inl (h.of_alloc ?_)
        intro c p n e
        cases e
        rw [decide_copy_cells hd]; exact hq.1 n
      · cases e
  | _ => exact .inl h

theorem Exec.tidy (E : Exec cfg) (i : Nat) : ∀ t c, E.Running i t c → c.pc.tidy := by
  induction i with
  | zero => intro t c h; rw [Exec.Running, E.init] at h; cases h
  | succ i ih =>
    intro t c hc
    rcases step_run_full (E.step i) hc with ⟨g1, -⟩ | ⟨c0, pc, ran, weak, g1, g2, g3, rfl⟩ | ⟨r, g1, rfl, -⟩
    · exact ih t c g1
    · exact tick_tidy (ih t c0 g1) g3
    · cases r with
      | op o => cases o <;> trivial
      | isEmpty => trivial
      | iter => trivial

/-- Between instants `s` and `i`, the call that session `t` began at `s` read the word `w` in cell `n` of node `a`. -/
def Exec.Saw (E : Exec cfg) (t s i a : Nat) (n : Fin 16) (w : Word) : Prop :=
  ∃ j weak c ord, s ≤ j ∧ j < i ∧ E.lab j = .tick t weak ∧ E.Running j t c ∧ c.inv = s ∧ c.pc.access .code = some (.slot a n, ord) ∧
    (E.st j).m.read (.slot a n) = some w

theorem Exec.Saw.mono {E : Exec cfg} {t s i i' a : Nat} {n : Fin 16} {w : Word} (h : E.Saw t s i a n w) (hi : i ≤ i') : E.Saw t s i' a n w := by
  obtain ⟨j, weak, c, ord, h1, h2, h3⟩ := h
  exact ⟨j, weak, c, ord, h1, by omega, h3⟩

/-- Between instants `s` and `i`, the removal that session `t` began at `s` read all the cells of node `a`, and found a pointer in at most one of them. -/
def Exec.FoundSparse (E : Exec cfg) (t s i a : Nat) : Prop :=
  ∃ w : Fin 16 → Word, (∀ n, E.Saw t s i a n (w n)) ∧ ∃ n0, ∀ n, n ≠ n0 → (w n).ptr = none

theorem Exec.FoundSparse.mono {E : Exec cfg} {t s i i' a : Nat} (h : E.FoundSparse t s i a) (hi : i ≤ i') : E.FoundSparse t s i' a := by
  obtain ⟨w, h1, h2⟩ := h
  exact ⟨w, fun n => (h1 n).mono hi, h2⟩

/-- What a removal that looks through a node, or condemns it, has seen. -/
def SeenInv (E : Exec cfg) (t s i : Nat) : PC K P → Prop
  | .count _ _ _ ch _ n cn => ∀ a, ch.ptr = some a → ∃ w : Fin 16 → Word, (∀ j : Fin 16, j.val < n.val → E.Saw t s i a j (w j)) ∧
      ∃ occ : List (Fin 16), occ.length = cn ∧ ∀ j : Fin 16, j.val < n.val → (w j).ptr ≠ none → j ∈ occ
  | .prune _ ch _ _ (.clean ..) => ∀ a, ch.ptr = some a → E.FoundSparse t s i a
  | _ => True

theorem enterClean_seen {E : Exec cfg} {t s i : Nat} {d : P} {r : Nat} {l : List (Loc × Word)} {pc : PC K P} {ran : Bool} (h : enterClean d r l = .goto pc ran) :
    SeenInv E t s i pc := by
  cases l with
  | nil => cases h
  | cons y l =>
    simp only [enterClean] at h
    split at h <;> cases h
    intro a ha
    exact ⟨fun _ => Word.null, fun j hj => absurd hj (by simp), [], rfl, fun j hj => absurd hj (by simp)⟩

theorem afterPrune_seen {E : Exec cfg} {t s i : Nat} {r : PruneResult} {k : Cont K P} {pc : PC K P} {ran : Bool} (h : afterPrune r k = .goto pc ran) :
    SeenInv E t s i pc := by
  cases k with
  | trav => cases h; trivial
  | rem => cases h; trivial
  | clean d r l =>
    simp only [afterPrune] at h
    split at h
    · cases h
    · exact enterClean_seen h

theorem Exec.seen (E : Exec cfg) (i : Nat) : ∀ t c, E.Running i t c → SeenInv E t c.inv i c.pc := by
  induction i with
  | zero => intro t c h; rw [Exec.Running, E.init] at h; cases h
  | succ i ih =>
    intro t c hc
    rcases step_run_full (E.step i) hc with ⟨g1, -⟩ | ⟨c0, pc, ran, weak, g1, g2, g3, rfl⟩ | ⟨r, g1, rfl, -⟩
    · have := ih t c g1
      cases hpc : c.pc with
      | count d ref p ch rest n cn =>
        rw [hpc] at this
        intro a ha
        obtain ⟨w, h1, h2⟩ := this a ha
        exact ⟨w, fun j hj => (h1 j hj).mono (by omega), h2⟩
      | prune p ch n acc k =>
        rw [hpc] at this
        cases k with
        | clean => intro a ha; exact (this a ha).mono (by omega)
        | trav => trivial
        | rem => trivial
      | _ => trivial
    · have hold := ih t c0 g1
      simp only
      cases hpc : c0.pc with
      | count d ref p ch rest n cn =>
        rw [hpc] at hold g3
        simp only [tick, tickCount] at g3
        split at g3
        · cases g3
        · next a ha =>
          split at g3
          · cases g3
          · next v hv =>
            obtain ⟨w, h1, occ, h3, h4⟩ := hold a ha
            have hsaw : E.Saw t c0.inv (i + 1) a n v :=
              ⟨i, weak, c0, _, Nat.le_of_lt (E.run_inv i g1).1, by omega, g2, g1, rfl, by rw [hpc]; simp [PC.access, ha]; rfl, hv⟩
            have h1' : ∀ j : Fin 16, j.val < n.val + 1 → E.Saw t c0.inv (i + 1) a j (upd w n v j) := by
              intro j hj
              simp only [upd]
              split
              · next e => subst e; exact hsaw
              · next e => exact (h1 j (by have : j.val ≠ n.val := fun h => e (Fin.ext h); omega)).mono (by omega)
            have h2' : ∃ occ' : List (Fin 16), occ'.length = (if v.ptr.isSome then cn + 1 else cn) ∧
                ∀ j : Fin 16, j.val < n.val + 1 → (upd w n v j).ptr ≠ none → j ∈ occ' := by
              by_cases hs : v.ptr.isSome
              · rw [if_pos hs]
                refine ⟨n :: occ, by simp [h3], ?_⟩
                intro j hj hp
                simp only [upd] at hp
                split at hp
                · next e => subst e; exact List.mem_cons_self
                · next e => exact List.mem_cons_of_mem _ (h4 j (by have : j.val ≠ n.val := fun h => e (Fin.ext h); omega) hp)
              · rw [if_neg hs]
                refine ⟨occ, h3, ?_⟩
                intro j hj hp
                simp only [upd] at hp
                split at hp
                · exact absurd (by simpa using hs) hp
                · next e => exact h4 j (by have : j.val ≠ n.val := fun h => e (Fin.ext h); omega) hp
            generalize (if v.ptr.isSome = true then cn + 1 else cn) = cn' at h2' g3
            split at g3
            · cases g3
              intro a' ha'
              have e : a' = a := by
                have ha' : ch.ptr = some a' := ha'
                rw [ha] at ha'; cases ha'; rfl
              subst e
              exact ⟨upd w n v, h1', h2'⟩
            · next hn =>
              have hn' : n.val = 15 := by have := n.isLt; omega
              split at g3
              · cases g3
              · next hcn =>
                simp only [enterPrune] at g3
                repeat' split at g3
                all_goals first
                  | (cases g3; done)
                  | skip
                cases g3
                intro a' ha'
                have e : a' = a := by
                  have ha' : ch.ptr = some a' := ha'
                  rw [ha] at ha'; cases ha'; rfl
                subst e
                obtain ⟨occ', k2, k3⟩ := h2'
                refine ⟨upd w n v, fun j => h1' j (by have := j.isLt; omega), ?_⟩
                have hall : ∀ j, (upd w n v j).ptr ≠ none → j ∈ occ' := fun j => k3 j (by have := j.isLt; omega)
                cases occ' with
                | nil =>
                  refine ⟨0, fun j _ => ?_⟩
                  by_contra hne
                  cases hall j hne
                | cons b rest =>
                  have : rest = [] := List.eq_nil_of_length_eq_zero (by simp only [List.length_cons] at k2; omega)
                  subst this
                  refine ⟨b, fun j hj => ?_⟩
                  by_contra hne
                  have := hall j hne
                  simp at this
                  exact hj this
      | prune p ch n acc k =>
        rw [hpc] at hold g3
        simp only [tick, tickPrune] at g3
        repeat' split at g3
        all_goals first
          | (cases g3; done)
          | (cases g3; trivial)
          | skip
        cases g3
        cases k with
        | clean => intro a ha; exact (hold a ha).mono (by omega)
        | trav => trivial
        | rem => trivial
      | pruneCas p ch acc k =>
        rw [hpc] at g3
        simp only [tick, tickPruneCas] at g3
        repeat' split at g3
        all_goals first
          | exact afterPrune_seen g3
          | (cases g3; done)
      | remCas key shift cur levels node new deleted =>
        rw [hpc] at g3
        simp only [tick, tickRemCas] at g3
        repeat' split at g3
        all_goals first
          | exact enterClean_seen g3
          | (cases g3; done)
          | (cases g3; trivial)
      | trav st hash mode shift cur parent =>
        rw [hpc] at g3
        simp only [tick, tickTrav, enterPrune] at g3
        repeat' split at g3
        all_goals first
          | exact (finishTrav_not_goto g3).elim
          | (cases g3; done)
          | (cases g3; trivial)
      | travCas st hash mode shift cur parent node new kind =>
        rw [hpc] at g3
        simp only [tick, tickTravCas] at g3
        repeat' split at g3
        all_goals first
          | exact (finishTrav_not_goto g3).elim
          | (cases g3; done)
          | (cases g3; trivial)
      | get key hash cur =>
        rw [hpc] at g3
        simp only [tick, tickGet] at g3
        repeat' split at g3
        all_goals (cases g3; try trivial)
      | isEmpty => rw [hpc] at g3; cases g3
      | iterNew => rw [hpc] at g3; cases g3; trivial
      | iterNext levels out =>
        rw [hpc] at g3
        simp only [tick, tickIterNext] at g3
        repeat' split at g3
        all_goals (cases g3; try trivial)
      | rem key shift cur levels =>
        rw [hpc] at g3
        simp only [tick, tickRem, enterPrune] at g3
        repeat' split at g3
        all_goals first
          | (cases g3; done)
          | (cases g3; trivial)
    · cases r with
      | op o => cases o <;> trivial
      | isEmpty => trivial
      | iter => trivial

/-- **C55.** Nobody condemns an inner node (the first step of clearing it away) but a removal that has looked through all its cells and found a pointer in at
most one of them; and the node lies on the hash path of the key it removes. -/
theorem C55_first_condemnation (E : Exec cfg) {i a : Nat} (h0 : ∀ n, ¬ (E.st i).m.CondAt a n) {n : Fin 16} (h1 : (E.st (i + 1)).m.CondAt a n) :
    ∃ t weak c k, E.lab i = .tick t weak ∧ E.Running i t c ∧ c.req = .op (.remove k) ∧ E.FoundSparse t c.inv i a ∧
      ∃ cs p, (E.st i).m.mem a = some (.inner cs p) ∧ p <+: nibs (cfg.hash k) := by
  have hs := E.step i
  cases hl : E.lab i with
  | tick t weak =>
    rw [hl] at hs
    obtain ⟨c, hc, hm, -⟩ := step_tick hs
    rw [hm] at h1
    have h1 : (tick cfg (E.st i).m weak c.pc).1.CondAt a n := h1
    rcases tick_condAt (E.tidy i t c hc) h1 with h | ⟨p, ch, acc, k, hpc, ha⟩
    · exact absurd h (h0 n)
    · have hi := E.run_pcinv hc
      have hsn := E.seen i t c hc
      have hh := E.helps i t c hc
      have hcx : ∀ st hash mode, k ≠ .trav st hash mode := by
        rintro st hash mode rfl
        rw [hpc] at hh
        obtain ⟨a', cs, q, j, e1, e2, e3⟩ := hh
        rw [ha] at e1; cases e1
        exact h0 j ⟨cs, q, e2, e3⟩
      have hcy : ∀ key, k ≠ .rem key := by
        rintro key rfl
        rw [hpc] at hh
        obtain ⟨a', cs, q, j, e1, e2, e3⟩ := hh
        rw [ha] at e1; cases e1
        exact h0 j ⟨cs, q, e2, e3⟩
      cases k with
      | trav st hash mode => exact absurd rfl (hcx st hash mode)
      | rem key => exact absurd rfl (hcy key)
      | clean d r rest =>
        simp only [PCInv, hpc] at hi
        obtain ⟨k, hk⟩ := hi.1.1.1
        rw [hpc] at hsn
        refine ⟨t, weak, c, k, rfl, hc, hk, hsn a ha, ?_⟩
        obtain ⟨a', cs, q, e1, e2, e3⟩ := E.pairs_path i t c _ hc hk (p, ch) (by rw [hpc]; exact List.mem_cons_self)
        have e1 : ch.ptr = some a' := e1
        rw [ha] at e1; cases e1
        exact ⟨cs, q, e2, e3⟩
  | _ =>
    exfalso
    rw [hl] at hs
    refine h0 n ?_
    simp only [Contrie.step] at hs
    repeat' split at hs
    all_goals first
      | (cases hs; done)
      | (simp only [Option.some.injEq, Prod.mk.injEq] at hs; rw [← hs.1] at h1; exact h1)

/-- **C55** for any instant: if a cell of an inner node is condemned, some removal called before has found the node to hold at most one pointer. -/
theorem C55_condemned_was_sparse (E : Exec cfg) {i a : Nat} {n : Fin 16} (h : (E.st i).m.CondAt a n) :
    ∃ t s k, s < i ∧ E.lab s = .call t (.op (.remove k)) ∧ E.FoundSparse t s i a := by
  induction i generalizing n with
  | zero => rw [E.init] at h; obtain ⟨c, p, h, -⟩ := h; cases h
  | succ i ih =>
    by_cases h0 : ∃ n, (E.st i).m.CondAt a n
    · obtain ⟨n', h0⟩ := h0
      obtain ⟨t, s, k, g1, g2, g3⟩ := ih h0
      exact ⟨t, s, k, by omega, g2, g3.mono (by omega)⟩
    · obtain ⟨t, weak, c, k, g1, g2, g3, g4, -⟩ := C55_first_condemnation E (fun n hn => h0 ⟨n, hn⟩) h
      obtain ⟨e1, -, e2⟩ := E.run_inv i g2
      exact ⟨t, c.inv, k, by omega, by rw [e2, g3], g4.mono (by omega)⟩

/-- A call in progress has been in progress since it began. -/
theorem Exec.running_since (E : Exec cfg) {i t : Nat} {c : Call K P} (hc : E.Running i t c) {j : Nat} (h1 : c.inv < j) (h2 : j ≤ i) :
    ∃ c', E.Running j t c' ∧ c'.inv = c.inv ∧ c'.req = c.req := by
  induction i generalizing c with
  | zero => rw [Exec.Running, E.init] at hc; cases hc
  | succ i ih =>
    by_cases e : j = i + 1
    · subst e; exact ⟨c, hc, rfl, rfl⟩
    · rcases step_run_full (E.step i) hc with ⟨g1, -⟩ | ⟨c0, pc, ran, weak, g1, g2, g3, rfl⟩ | ⟨r, g1, rfl, -⟩
      · exact ih g1 h1 (by omega)
      · exact ih (c := c0) g1 h1 (by omega)
      · exfalso
        have h1 : (E.st i).m.clock < j := h1
        rw [E.clock] at h1
        omega

/-- The cell of a linked node through which the path to a present key leads is not empty. -/
theorem MemInv.cell_ne_null {A : Nat → AMap K P} {m : Mem P} (h : MemInv cfg A m) {a : Nat} {c : Fin 16 → Word} {p : List (Fin 16)}
    (hm : m.mem a = some (.inner c p)) (hr : m.retired a = none) {k : K} {n : Fin 16} (hp : p ++ [n] <+: nibs (cfg.hash k)) (hk : m.abs cfg k ≠ none) :
    (c n).ptr ≠ none := by
  intro e
  apply hk
  obtain ⟨r, hr'⟩ := hp
  have hf := h.inner_at hm hr
  unfold Mem.abs
  rw [← hr', List.append_assoc, look_follow hf]
  simp only [List.cons_append, List.nil_append, Mem.look]
  have h1 : m.leafVal cfg k ⟨some a, false, false⟩ = none := leafVal_inner rfl rfl
  have h2 : m.cellsOf ⟨some a, false, false⟩ = some c := by simp [Mem.cellsOf, hm]
  simp only [h1, h2]
  exact look_leaf r (leafVal_null e)

/-- **C55**, nodes that are needed stay: let an inner node be in the trie at instant `j`, uncondemned, while no removal is in progress. As long as two keys that
part at this node are both present, no call condemns a cell of the node, so it stays in the trie. -/
theorem C55_branching_node_stays (E : Exec cfg) {j i a : Nat} (hji : j ≤ i) {c : Fin 16 → Word} {p : List (Fin 16)}
    (hm : (E.st j).m.mem a = some (.inner c p)) (h0 : ∀ n, (c n).cond = false)
    (hq : ∀ t c k, E.Running j t c → c.req ≠ .op (.remove k))
    {k1 k2 : K} {n1 n2 : Fin 16} (hn : n1 ≠ n2) (hk1 : p ++ [n1] <+: nibs (cfg.hash k1)) (hk2 : p ++ [n2] <+: nibs (cfg.hash k2))
    (hpres : ∀ τ, j ≤ τ → τ < i → E.content τ k1 ≠ none ∧ E.content τ k2 ≠ none) :
    (E.st i).m.retired a = none ∧ ∃ c', (E.st i).m.mem a = some (.inner c' p) ∧ ∀ n, (c' n).cond = false := by
  have hnode : ∀ τ, j ≤ τ → ∃ c', (E.st τ).m.mem a = some (.inner c' p) := by
    intro τ hτ
    induction τ, hτ using Nat.le_induction with
    | base => exact ⟨c, hm⟩
    | succ τ hτ ih =>
      obtain ⟨c', h⟩ := ih
      obtain ⟨c'', h', -⟩ := (E.stepOK τ).evo.inner a c' p h
      exact ⟨c'', h'⟩
  have hnc : ∀ τ, j ≤ τ → τ ≤ i → ∀ n, ¬ (E.st τ).m.CondAt a n := by
    intro τ
    induction τ using Nat.strongRecOn with
    | _ τ ih =>
      intro hjτ hτi n hcond
      by_cases e : τ = j
      · subst e
        obtain ⟨c', p', e1, e2⟩ := hcond
        rw [hm] at e1; cases e1
        rw [h0] at e2; cases e2
      · obtain ⟨τ, rfl⟩ : ∃ τ', τ = τ' + 1 := ⟨τ - 1, by omega⟩
        obtain ⟨t, weak, cc, k, g1, g2, g3, ⟨w, g4, n0, g5⟩, -⟩ := C55_first_condemnation E (ih τ (by omega) (by omega) (by omega)) hcond
        have hs : j ≤ cc.inv := by
          by_contra hlt
          obtain ⟨c', e1, e2, e3⟩ := E.running_since g2 (j := j) (by omega) (by omega)
          exact hq t c' k e1 (by rw [e3, g3])
        have occ : ∀ n k, p ++ [n] <+: nibs (cfg.hash k) → (∀ τ', j ≤ τ' → τ' < i → E.content τ' k ≠ none) → n = n0 := by
          intro n k hk hpr
          by_contra hne
          obtain ⟨σ, weak', c', ord, f1, f2, f3, f4, f5, f6, f7⟩ := g4 n
          have hσ : j ≤ σ := by omega
          obtain ⟨cs, hcs⟩ := hnode σ hσ
          have hret : (E.st σ).m.retired a = none := by
            cases hr : (E.st σ).m.retired a with
            | none => rfl
            | some τ' => exact absurd ⟨cs, p, hcs, (E.inv σ).mem.frozen a cs p τ' hcs hr 0⟩ (ih σ (by omega) hσ (by omega) 0)
          have := (E.inv σ).mem.cell_ne_null hcs hret hk (hpr σ hσ (by omega))
          apply this
          simp only [Mem.read, Mem.deref] at f7
          split at f7
          · next cells path hd =>
            split at hd
            · cases hd
            · rw [hcs] at hd; cases hd; rw [Option.some.inj f7]; exact g5 n hne
          · cases f7
        exact hn ((occ n1 k1 hk1 (fun τ' a b => (hpres τ' a b).1)).trans (occ n2 k2 hk2 (fun τ' a b => (hpres τ' a b).2)).symm)
  obtain ⟨c', hc'⟩ := hnode i hji
  have hall : ∀ n, (c' n).cond = false := by
    intro n
    have := hnc i hji (Nat.le_refl _) n
    cases e : (c' n).cond with
    | false => rfl
    | true => exact absurd ⟨c', p, hc', e⟩ this
  refine ⟨?_, c', hc', hall⟩
  cases hr : (E.st i).m.retired a with
  | none => rfl
  | some τ => have := (E.inv i).mem.frozen a c' p τ hc' hr 0; rw [hall] at this; cases this

/-- Session 0 inserts 7, 23 and 39 (which have a node at position [7] in common) and removes 39. -/
def exStay : List (Label Nat (Nat × Nat)) :=
  [.pin 0, .call 0 (.op (.insert (7, 1)))] ++ ticks 0 2 ++ [.call 0 (.op (.insert (23, 2)))] ++ ticks 0 8 ++
  [.call 0 (.op (.insert (39, 3)))] ++ ticks 0 4 ++ [.call 0 (.op (.remove 39))] ++ ticks 0 20

set_option maxRecDepth 8000 in
/-- Non-vacuity of `C55_branching_node_stays`: in the run `exStay`, from instant 18 (the three insertions are over) to the end (39 is removed). -/
example : ∃ (E : Exec exCfg) (c : Fin 16 → Word), (E.st 18).m.mem 2 = some (.inner c [7]) ∧ (∀ n, (c n).cond = false) ∧
    (∀ t c k, E.Running 18 t c → c.req ≠ .op (.remove k)) ∧ [7] ++ [0] <+: nibs (exCfg.hash 7) ∧ [7] ++ [1] <+: nibs (exCfg.hash 23) ∧
    (∀ τ, 18 ≤ τ → τ < 39 → E.content τ 7 ≠ none ∧ E.content τ 23 ≠ none) ∧ E.lab 18 = .call 0 (.op (.remove 39)) ∧
    E.content 18 39 = some (39, 3) ∧ E.content 39 39 = none := by
  obtain ⟨E, h1, -, h3⟩ := Exec.ofCheck' (cfg := exCfg) 4 (ls := exStay) (by decide)
  have hx : (match (stAt exCfg exStay 18).m.mem 2 with
      | some (.inner c p) => decide (p = [7]) && (List.finRange 16).all (fun n => !(c n).cond)
      | _ => false) = true := by decide
  have hcase : ∃ c, (stAt exCfg exStay 18).m.mem 2 = some (.inner c [7]) ∧ ∀ n, (c n).cond = false := by
    split at hx
    · next c p e =>
      simp only [Bool.and_eq_true, decide_eq_true_eq, List.all_eq_true, List.mem_finRange, Bool.not_eq_true', true_implies] at hx
      obtain ⟨rfl, hx⟩ := hx
      exact ⟨c, e, hx⟩
    · cases hx
  obtain ⟨c, g1, g2⟩ := hcase
  refine ⟨E, c, by rw [h1]; exact g1, g2, ?_, by decide, by decide, ?_, by rw [h3]; rfl, ?_, ?_⟩
  · intro t c k hc
    exfalso
    by_cases ht : t = 0
    · subst ht
      have : ((stAt exCfg exStay 18).thr 0).run.isNone = true := by decide
      rw [Exec.Running, h1] at hc
      rw [hc] at this; cases this
    · obtain ⟨hs, -, h⟩ := E.run_inv 18 hc
      have hall : ∀ j : Fin 18, (match exStay.getD j.val .idle with
        | .call t _ => decide (t = 0)
        | _ => true) = true := by decide
      have := hall ⟨c.inv, hs⟩
      simp only [← h3, h, decide_eq_true_eq] at this
      exact ht this
  · intro τ hτ1 hτ2
    have : ∀ j : Fin 21, ((stAt exCfg exStay (18 + j.val)).m.abs exCfg 7).isSome = true ∧ ((stAt exCfg exStay (18 + j.val)).m.abs exCfg 23).isSome = true := by decide
    have := this ⟨τ - 18, by omega⟩
    simp only [show 18 + (τ - 18) = τ by omega] at this
    simp only [Exec.content, State.content, h1]
    constructor
    · intro e; rw [e] at this; cases this.1
    · intro e; rw [e] at this; cases this.2
  · simp only [Exec.content, State.content, h1]; decide
  · simp only [Exec.content, State.content, h1]; decide

set_option maxRecDepth 8000 in
/-- Non-vacuity of `C55_first_condemnation`: in the run `exHelp` the removal of 23 condemns the first cell of node 2 in step 35. -/
example : ∃ E : Exec exCfg, (∀ n, ¬ (E.st 35).m.CondAt 2 n) ∧ (E.st 36).m.CondAt 2 0 := by
  obtain ⟨E, h1, -, h3⟩ := Exec.ofCheck' (cfg := exCfg) 4 (ls := exHelp) (by decide)
  have hx : (match (stAt exCfg exHelp 35).m.mem 2 with
      | some (.inner c p) => (List.finRange 16).all (fun n => !(c n).cond)
      | _ => true) = true := by decide
  have hy : (match (stAt exCfg exHelp 36).m.mem 2 with
      | some (.inner c p) => (c 0).cond
      | _ => false) = true := by decide
  refine ⟨E, ?_, ?_⟩
  · rintro n ⟨c, p, e1, e2⟩
    rw [h1] at e1
    rw [e1] at hx
    simp only [List.all_eq_true, List.mem_finRange, Bool.not_eq_true', true_implies] at hx
    rw [hx n] at e2; cases e2
  · rw [h1]
    split at hy
    · next c p e => exact ⟨c, p, e, hy⟩
    · cases hy

end Contrie
