import Verif.Props.Path
/-
C52: inner nodes are made only to tell keys apart, under every schedule; so the cost of a lookup and the size of the trie are bounded by the
keys that were offered.
-/
set_option linter.unusedSectionVars false
namespace Contrie
variable {K P : Type} [DecidableEq K] {cfg : Config K P}

/-- Before instant `i`, two different keys whose hashes both start with `q` competed for the same place: at some instant one of them was in the map
while the other was being inserted. -/
def Exec.Collided (E : Exec cfg) (i : Nat) (q : List (Fin 16)) : Prop :=
  ∃ τ k k', τ < i ∧ k ≠ k' ∧ HashStarts cfg q k ∧ HashStarts cfg q k' ∧ E.content τ k ≠ none ∧
    ∃ t c o p, E.Running τ t c ∧ c.req = .op o ∧ o.key cfg.key = k' ∧ o.offers p

theorem Exec.Collided.mono {E : Exec cfg} {i j : Nat} {q : List (Fin 16)} (h : E.Collided i q) (hij : i ≤ j) : E.Collided j q := by
  obtain ⟨τ, k, k', h1, h2⟩ := h
  exact ⟨τ, k, k', by omega, h2⟩

theorem write_inner {m : Mem P} {w : Word} {l : Loc} {a : Nat} {c : Fin 16 → Word} {q : List (Fin 16)}
    (h : (m.write w l).mem a = some (.inner c q)) : ∃ c0, m.mem a = some (.inner c0 q) := by
  cases l with
  | root => exact ⟨c, h⟩
  | slot b i =>
    simp only [Mem.write] at h
    split at h
    · next cells path hm =>
      by_cases e : a = b
      · subst e
        simp only [upd_same, Option.some.injEq, Node.inner.injEq] at h
        exact ⟨cells, by rw [hm, h.2]⟩
      · simp only [upd_other _ _ e] at h; exact ⟨c, h⟩
    · exact ⟨c, h⟩

theorem alloc_inner {m : Mem P} {nd : Node P} {a : Nat} {c : Fin 16 → Word} {q : List (Fin 16)}
    (h : (m.alloc nd).mem a = some (.inner c q)) : m.mem a = some (.inner c q) ∨ nd = .inner c q := by
  simp only [Mem.alloc] at h
  by_cases e : a = m.next
  · subst e; simp only [upd_same, Option.some.injEq] at h; exact .inr h
  · simp only [upd_other _ _ e] at h; exact .inl h

/-- Where the inner nodes after a step come from. -/
theorem tick_inner_from {m : Mem P} {weak : Bool} {pc : PC K P} {a : Nat} {c : Fin 16 → Word} {q : List (Fin 16)}
    (h : (tick cfg m weak pc).1.mem a = some (.inner c q)) : (∃ b c0, m.mem b = some (.inner c0 q)) ∨
      ∃ st hash mode shift cur parent node c0 kind, pc = .travCas st hash mode shift cur parent node (.inner c0 q) kind ∧ m.read cur = some node := by
  have hw : ∀ {w l}, (m.write w l).mem a = some (.inner c q) → ∃ b c0, m.mem b = some (.inner c0 q) := by
    intro w l h
    obtain ⟨c0, h⟩ := write_inner h
    exact ⟨a, c0, h⟩
  have haw : ∀ {nd w l}, ((m.alloc nd).write w l).mem a = some (.inner c q) → (∃ b c0, m.mem b = some (.inner c0 q)) ∨ ∃ c0, nd = .inner c0 q := by
    intro nd w l h
    obtain ⟨c0, h⟩ := write_inner h
    rcases alloc_inner h with h | h
    · exact .inl ⟨a, c0, h⟩
    · exact .inr ⟨c0, h⟩
  cases pc with
  | travCas st hash mode shift cur parent node new kind =>
    have key : ∀ {w l}, m.read cur = some node → ((m.alloc new).write w l).mem a = some (.inner c q) → (∃ b c0, m.mem b = some (.inner c0 q)) ∨
        ∃ st' hash' mode' shift' cur' parent' node' c0 kind', PC.travCas st hash mode shift cur parent node new kind =
          .travCas st' hash' mode' shift' cur' parent' node' (.inner c0 q) kind' ∧ m.read cur' = some node' := by
      intro w l hr h
      rcases haw h with h | ⟨c0, rfl⟩
      · exact .inl h
      · exact .inr ⟨_, _, _, _, _, _, _, _, _, rfl, hr⟩
    simp only [tick, tickTravCas] at h
    split at h
    · exact .inl ⟨a, c, h⟩
    · next w hr =>
      split at h
      · next e =>
        rw [e.1] at hr
        repeat' split at h
        all_goals exact key hr h
      · exact .inl ⟨a, c, h⟩
  | remCas key shift cur levels node new deleted =>
    simp only [tick, tickRemCas] at h
    repeat' split at h
    all_goals first
      | exact .inl ⟨a, c, h⟩
      | exact .inl (hw h)
      | (rcases haw h with h | ⟨c0, h⟩
         · exact .inl h
         · cases h)
  | prune parent child i acc k =>
    simp only [tick, tickPrune] at h
    cases hp : child.ptr with
    | none => simp only [hp] at h; exact .inl ⟨a, c, h⟩
    | some b =>
      simp only [hp] at h
      cases hr : m.read (.slot b i) with
      | none => simp only [hr] at h; exact .inl ⟨a, c, h⟩
      | some gc =>
        simp only [hr] at h
        repeat' split at h
        all_goals exact .inl (hw h)
  | pruneCas parent child acc k =>
    simp only [tick, tickPruneCas] at h
    cases hp : child.ptr with
    | none => simp only [hp] at h; exact .inl ⟨a, c, h⟩
    | some b =>
      simp only [hp] at h
      split at h
      · next w cs path hr hd =>
        have hb : m.mem b = some (.inner cs path) := by
          simp only [Mem.deref] at hd
          split at hd
          · cases hd
          · exact hd
        repeat' split at h
        all_goals first
          | exact .inl ⟨a, c, h⟩
          | exact .inl (hw h)
          | (rcases haw h with h | ⟨c0, h⟩
             · exact .inl h
             · cases h; exact .inl ⟨b, _, hb⟩)
      · exact .inl ⟨a, c, h⟩
  | _ => exact .inl ⟨a, c, h⟩

/-- What a traversal offers. -/
theorem TravReq.offers {r : Req K P} {mode : Mode} {st : TState K P} {n : Nat} (h : TravReq cfg r mode st n) :
    ∃ o p, r = .op o ∧ o.key cfg.key = st.key cfg ∧ o.offers p := by
  cases h with
  | ins p => exact ⟨_, p, rfl, rfl, .inl rfl⟩
  | fut k f wf => exact ⟨_, f k, rfl, rfl, .inr ⟨k, f, rfl, rfl⟩⟩
  | made k f wf => exact ⟨_, f k, rfl, wf.symm, .inr ⟨k, f, rfl, rfl⟩⟩

theorem Exec.inner_collided (E : Exec cfg) (i : Nat) : ∀ a c q, (E.st i).m.mem a = some (.inner c q) → E.Collided i q := by
  induction i with
  | zero => intro a c q h; rw [E.init] at h; cases h
  | succ i ih =>
    intro a c q h
    have hs := E.step i
    have same : ∀ {m : Mem P}, m = (E.st (i + 1)).m → m.mem = (E.st i).m.mem → E.Collided (i + 1) q := by
      intro m e h2
      rw [← e, h2] at h
      exact (ih a c q h).mono (by omega)
    cases hl : E.lab i with
    | tick t weak =>
      rw [hl] at hs
      simp only [Contrie.step] at hs
      split at hs
      · cases hs
      · next cl hc =>
        simp only [Option.some.injEq, Prod.mk.injEq] at hs
        rw [← hs.1] at h
        rcases tick_inner_from (cfg := cfg) h with ⟨b, c0, h⟩ | ⟨st, hash, mode, shift, cur, parent, node, c0, kind, hpc, hr⟩
        · exact (ih b c0 q h).mono (by omega)
        · have hi := E.run_pcinv hc
          have x := (E.inv i).ctx hc
          simp only [PCInv, hpc] at hi
          obtain ⟨d, -, hat, hcas⟩ := hi
          obtain ⟨w, hr', hA, -, hok⟩ := x.read hat.loc
          rw [hr] at hr'; cases hr'
          cases hcas with
          | split a0 d0 hh hm hd hne =>
            obtain ⟨l, hl', hD⟩ := hok.of_data rfl rfl
            rw [hm] at hl'; cases hl'
            obtain ⟨o, p, ho, hk, hoff⟩ := hat.req.offers
            have hpre : pre hash d <+: nibs (cfg.hash (cfg.key d0)) := hD.pre d0 (by simp)
            refine ⟨i, cfg.key d0, st.key cfg, by omega, hne, hashStarts_iff.mpr hpre, ?_, ?_, t, cl, o, p, hc, ho, hk, hoff⟩
            · rw [hashStarts_iff, hat.hashEq]; exact pre_prefix _ _
            · have hf := (E.inv i).mem.at_follow hA rfl
              obtain ⟨ns, hns⟩ := hpre
              have : E.content i (cfg.key d0) = some d0 := by
                show (E.st i).m.look cfg (cfg.key d0) _ (nibs _) = _
                rw [← hns, look_follow hf, look_leaf ns (leafVal_data rfl rfl hm)]
                simp
              rw [this]; simp
    | pin t =>
      rw [hl] at hs
      simp only [Contrie.step] at hs
      split at hs <;> simp only [Option.some.injEq, Prod.mk.injEq, reduceCtorEq] at hs
      exact same (congrArg State.m hs.1) rfl
    | unpin t =>
      rw [hl] at hs
      simp only [Contrie.step] at hs
      split at hs <;> simp only [Option.some.injEq, Prod.mk.injEq, reduceCtorEq] at hs
      exact same (congrArg State.m hs.1) rfl
    | call t r =>
      rw [hl] at hs
      simp only [Contrie.step] at hs
      split at hs <;> simp only [Option.some.injEq, Prod.mk.injEq, reduceCtorEq] at hs
      exact same (congrArg State.m hs.1) rfl
    | abort t =>
      rw [hl] at hs
      simp only [Contrie.step] at hs
      split at hs <;> simp only [Option.some.injEq, Prod.mk.injEq, reduceCtorEq] at hs
      exact same (congrArg State.m hs.1) rfl
    | idle =>
      rw [hl] at hs
      simp only [Contrie.step, Option.some.injEq, Prod.mk.injEq] at hs
      exact same (congrArg State.m hs.1) rfl
    | free b =>
      rw [hl] at hs
      simp only [Contrie.step, Option.some.injEq, Prod.mk.injEq] at hs
      exact same (congrArg State.m hs.1) rfl

/-- **C52.** Inner nodes exist only where hashes collide: if a branching node hangs at position `q`, then before, one key whose hash starts with `q`
was in the map while another such key was being inserted. Under every schedule; after removals, too. -/
theorem C52_no_needless_nodes (E : Exec cfg) {i a : Nat} {c : Fin 16 → Word} {p q : List (Fin 16)} (hl : HangsAt (E.st i).m a q)
    (hm : (E.st i).m.mem a = some (.inner c p)) : E.Collided i q := by
  obtain ⟨w, hf, hw⟩ := (hangsAt_iff (E.inv i).mem).mp hl
  have hok := (E.inv i).mem.path_ok hf
  cases hd : w.data with
  | true => obtain ⟨l, hl, -⟩ := hok.of_data hw hd; rw [hm] at hl; cases hl
  | false => obtain ⟨c, hc⟩ := hok.of_inner hw hd; exact E.inner_collided i a c q hc

/-- A key was offered to the map before instant `i`. -/
def Exec.Offered (E : Exec cfg) (i : Nat) (k : K) : Prop := ∃ id o p, id < i ∧ E.Invoked id (.op o) ∧ o.offers p ∧ o.key cfg.key = k

theorem Exec.Collided.offered {E : Exec cfg} {i : Nat} {q : List (Fin 16)} (h : E.Collided i q) :
    ∃ k k', k ≠ k' ∧ HashStarts cfg q k ∧ HashStarts cfg q k' ∧ E.Offered i k ∧ E.Offered i k' := by
  obtain ⟨τ, k, k', h1, h2, h3, h4, h5, t, c, o, p, h6, h7, h8, h9⟩ := h
  refine ⟨k, k', h2, h3, h4, ?_, ?_⟩
  · obtain ⟨x, hx⟩ := Option.ne_none_iff_exists'.mp h5
    obtain ⟨-, id, o', g1, g2, g3, g4⟩ := E.content_offered hx
    exact ⟨id, o', x, by omega, g2, g4, g3⟩
  · obtain ⟨g1, g2, -⟩ := E.run_inv τ h6
    exact ⟨c.inv, o, p, by omega, by rw [Exec.Invoked, ← h7]; exact g2, h9, h8⟩

theorem HashStarts.common {q : List (Fin 16)} {k k' : K} (h : HashStarts cfg q k) (h' : HashStarts cfg q k') {d : Nat} (hd : d < q.length) :
    bitsAt (cfg.hash k) (LEVEL_BITS * d) = bitsAt (cfg.hash k') (LEVEL_BITS * d) := (h.2 d hd).symm.trans (h'.2 d hd)

/-- **C52**, cost of a lookup: a lookup of `k` that makes `n + 2` accesses to shared memory (whatever the others do) has met a collision: two
different keys, offered before, whose hashes agree with each other and with the hash of `k` in the first `n` groups of four bits. So if the
hashes are well distributed, a lookup is short. -/
theorem C52_lookup_cost (E : Exec cfg) {id t : Nat} {k : K} (h : E.lab id = .call t (.op (.get k))) {j : Nat} {r : Res P} (hr : E.Returns j id r) {n : Nat}
    (hn : n + 2 ≤ E.accesses t id (j + 1)) :
    ∃ k1 k2, k1 ≠ k2 ∧ E.Offered j k1 ∧ E.Offered j k2 ∧ ∀ d, d < n →
      bitsAt (cfg.hash k1) (LEVEL_BITS * d) = bitsAt (cfg.hash k) (LEVEL_BITS * d) ∧
      bitsAt (cfg.hash k2) (LEVEL_BITS * d) = bitsAt (cfg.hash k) (LEVEL_BITS * d) := by
  obtain ⟨t', c, refs, weak, h1, h2, h3, h4, h5, h6, h7, h8⟩ := E.res hr
  obtain ⟨-, -, hl⟩ := E.run_inv j h2
  rw [h3, h] at hl
  injection hl with ht hq
  subst ht
  rw [Exec.accesses_succ] at hn
  have hte := E.ticks_eq j t c h2
  rw [h3] at hte
  have hn' : n + 1 ≤ c.ticks := by rw [hte]; split at hn <;> omega
  have hi := E.run_pcinv h2
  have hT : ∀ {mode st n}, ¬ TravReq cfg (.op (.get k)) mode st n := by intro mode st n h; cases h
  have hC : ∀ {m s n κ}, ¬ ContOK cfg m s (.op (.get k)) n κ := by
    intro m s n κ h
    cases κ with
    | trav => exact hT h.1
    | rem => cases h.1
    | clean => obtain ⟨⟨⟨_, h⟩, _⟩, _⟩ := h; cases h
  simp only [PCInv] at hi
  split at hi
  · next key hash cur hpc =>
    obtain ⟨e1, -, d, hd, ht, -, hl⟩ := hi
    rw [← hq] at e1; cases e1
    cases cur with
    | root =>
      have : d = 0 := by
        have h0 : (pre (cfg.hash k) d).length = 0 := by rw [show pre (cfg.hash k) d = [] from hl]; rfl
        rwa [pre_length _ hd] at h0
      omega
    | slot a i =>
      obtain ⟨cs, p, hm, hp, -⟩ := hl
      obtain ⟨k1, k2, g1, g2, g3, g4, g5⟩ := (E.inner_collided j a cs p hm).offered
      have hk : HashStarts cfg p k := hashStarts_iff.mpr (List.IsPrefix.trans ⟨[i], hp.symm⟩ (pre_prefix _ d))
      have hlen : n ≤ p.length := by
        have := congrArg List.length hp
        rw [pre_length _ hd] at this
        simp at this
        omega
      exact ⟨k1, k2, g1, g4, g5, fun d hd => ⟨g2.common hk (by omega), g3.common hk (by omega)⟩⟩
  all_goals rw [← hq] at hi
  · cases hi.1
  · cases hi.1
  · cases hi.1
  · obtain ⟨d, -, h⟩ := hi; exact absurd h.req hT
  · obtain ⟨d, -, h, -⟩ := hi; exact absurd h.req hT
  · cases hi.1
  · cases hi.1
  · obtain ⟨⟨_, h⟩, -⟩ := hi; cases h
  · exact absurd hi.1 hC
  · exact absurd hi.1 hC

/-- **C52**, cost of a lookup if there are no collisions: if the hashes of any two different keys ever offered differ in the first `n` groups of
four bits (`n ≥ 1`), no lookup makes more than `n + 1` accesses. -/
theorem C52_lookup_short (E : Exec cfg) {n : Nat} (hdist : ∀ j k1 k2, E.Offered j k1 → E.Offered j k2 →
      (∀ d, d < n → bitsAt (cfg.hash k1) (LEVEL_BITS * d) = bitsAt (cfg.hash k2) (LEVEL_BITS * d)) → k1 = k2)
    {id t : Nat} {k : K} (h : E.lab id = .call t (.op (.get k))) {j : Nat} {r : Res P} (hr : E.Returns j id r) :
    E.accesses t id (j + 1) ≤ n + 1 := by
  rcases Nat.lt_or_ge (n + 1) (E.accesses t id (j + 1)) with hlt | hge
  · obtain ⟨k1, k2, g1, g2, g3, g4⟩ := C52_lookup_cost E h hr (n := n) hlt
    exact absurd (hdist j k1 k2 g2 g3 (fun d hd => (g4 d hd).1.trans (g4 d hd).2.symm)) g1
  · exact hge

/-- **C52**, size of the trie: under every schedule and at every instant, also in the midst of updates, if all the keys offered so far are in the
list `ks`, then at most `16 * ks.length` branching nodes are linked. -/
theorem C52_size (E : Exec cfg) {i : Nat} (ks : List K) (hks : ∀ k, E.Offered i k → k ∈ ks) :
    ∃ inn : List Nat, inn.length ≤ 16 * ks.length ∧
      ∀ a c p, Linked (E.st i).m a → (E.st i).m.mem a = some (.inner c p) → a ∈ inn := by
  classical
  let at' : List (Fin 16) → Nat := fun q => match (E.st i).m.follow (E.st i).m.root q with
    | some w => w.ptr.getD 0
    | none => 0
  refine ⟨ks.flatMap (fun k => (List.range 16).map (fun d => at' (pre (cfg.hash k) d))), ?_, ?_⟩
  · rw [List.length_flatMap]
    simp only [List.length_map, List.length_range]
    rw [List.map_const', List.sum_replicate_nat]
    omega
  · intro a c p hl hm
    obtain ⟨q, w, hf, hw⟩ := (linked_iff (E.inv i).mem).mp hl
    have hla : HangsAt (E.st i).m a q := (hangsAt_iff (E.inv i).mem).mpr ⟨w, hf, hw⟩
    obtain ⟨k, k', -, h1, -, h2, -⟩ := (C52_no_needless_nodes E hla hm).offered
    have hq : q.length < 16 := by
      have hok := (E.inv i).mem.path_ok hf
      cases hd : w.data with
      | true => obtain ⟨l, hl, -⟩ := hok.of_data hw hd; rw [hm] at hl; cases hl
      | false => obtain ⟨c, hc⟩ := hok.of_inner hw hd; exact ((E.inv i).mem.nodeOK a c q hc).1
    rw [List.mem_flatMap]
    refine ⟨k, hks k h2, List.mem_map.mpr ⟨q.length, List.mem_range.mpr hq, ?_⟩⟩
    rw [← pre_of_prefix (hashStarts_iff.mp h1)]
    simp only [at', hf, hw, Option.getD_some]

/-- Non-vacuity: in the run `exLook` (keys 7 and 23, whose hashes agree in the first four bits and differ in the next), two branching nodes are linked;
node 2 hangs at `[7]`. The lookup of 7 invoked at instant 18 returns in step 23 and makes three accesses, `n + 1` for `n = 2`. -/
example : ∃ E : Exec exCfg, HangsAt (E.st 23).m 2 [7] ∧ (∃ c p, (E.st 23).m.mem 2 = some (.inner c p)) ∧ E.lab 18 = .call 1 (.op (.get 7)) ∧
    E.Returns 23 18 (.op (.opt (some (7, 1)))) ∧ E.accesses 1 18 24 = 3 ∧
    (∀ j k1 k2, E.Offered j k1 → E.Offered j k2 →
      (∀ d, d < 2 → bitsAt (exCfg.hash k1) (LEVEL_BITS * d) = bitsAt (exCfg.hash k2) (LEVEL_BITS * d)) → k1 = k2) := by
  obtain ⟨E, h1, h2, h3⟩ := Exec.ofCheck' (cfg := exCfg) 4 (ls := exLook) (by decide)
  have hoff : ∀ j k, E.Offered j k → k = 7 ∨ k = 23 := by
    rintro j k ⟨id, o, p, -, g1, g2, g3⟩
    obtain ⟨-, t, hl⟩ := (E.stepOK id).inv _ _ g1
    rw [h3] at hl
    have hmem : Label.call t (.op o) ∈ exLook := by
      rw [← hl]
      rcases Nat.lt_or_ge id exLook.length with hid | hid
      · rw [List.getD_eq_getElem?_getD, List.getElem?_eq_getElem hid]; exact List.getElem_mem hid
      · rw [List.getD_eq_getElem?_getD, List.getElem?_eq_none hid] at hl; cases hl
    simp only [exLook, ticks, List.mem_append, List.mem_cons, List.mem_replicate, Label.call.injEq, Req.op.injEq, reduceCtorEq, List.not_mem_nil,
      and_false, or_false, false_or, false_and] at hmem
    rcases g2 with rfl | ⟨k', f, rfl, -⟩
    · simp at hmem
      rcases hmem with hmem | hmem
      · left; rw [← g3, hmem.2]; rfl
      · right; rw [← g3, hmem.2]; rfl
    · simp at hmem
  refine ⟨E, ?_, ?_, ?_, ?_, ?_, ?_⟩
  · rw [h1]; exact HangsAt.cell (b := 1) (q := []) (i := 7) (.root rfl) rfl rfl
  · rw [h1]; exact ⟨_, _, rfl⟩
  · rw [h3]; rfl
  · rw [Exec.Returns, h2]; rfl
  · simp only [Exec.accesses, h3]; decide
  · intro j k1 k2 g1 g2 hd
    have := hd 1 (by omega)
    rcases hoff j k1 g1 with rfl | rfl <;> rcases hoff j k2 g2 with rfl | rfl
    · rfl
    · exact absurd this (by decide)
    · exact absurd this (by decide)
    · rfl

end Contrie
