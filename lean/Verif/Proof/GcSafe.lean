import Verif.Proof.GcRun
/-! Garbage collections that trigger no defect keep the invariant. -/
namespace LBDD

theorem stored_le {sl : Nat → Option Nat} : ∀ (n : Nat) (l : List Nat), l.Nodup → (∀ p ∈ l, ∃ i, i < n ∧ sl i = some p) →
    l.length + countFree sl n ≤ n := by
  intro n
  induction n with
  | zero =>
    intro l _ h
    cases l with
    | nil => simp [countFree]
    | cons p l => obtain ⟨i, hi, _⟩ := h p (by simp); omega
  | succ n ih =>
    intro l hn h
    simp only [countFree]
    cases e : sl n with
    | none =>
      have := ih l hn (fun p hp => by
        obtain ⟨i, hi, hs⟩ := h p hp
        refine ⟨i, ?_, hs⟩
        have : i ≠ n := by rintro rfl; rw [e] at hs; cases hs
        omega)
      simp; omega
    | some q =>
      have h1 := ih (l.erase q) (hn.erase q) (fun p hp => by
        obtain ⟨i, hi, hs⟩ := h p (List.mem_of_mem_erase hp)
        refine ⟨i, ?_, hs⟩
        have : i ≠ n := by
          rintro rfl
          rw [e] at hs
          cases hs
          exact (hn.not_mem_erase) hp
        omega)
      have h2 : l.length ≤ (l.erase q).length + 1 := by rw [List.length_erase]; split <;> omega
      simp; omega

theorem countFree_remove {sl : Nat → Option Nat} {n i p : Nat} (hi : i < n) (hn : sl i = some p) :
    countFree (upd sl i none) n = countFree sl n + 1 := by
  have h := countFree_upd (sl := upd sl i none) (p := p) hi (upd_same _ _ _)
  rw [← h, countFree_congr (sl := upd (upd sl i none) i (some p)) (sl' := sl) ?_]
  intro j _
  by_cases e : j = i
  · subst e; rw [upd_same, hn]
  · rw [upd_ne _ _ e, upd_ne _ _ e]

/-- Removing a node whose slot is followed by an empty slot. -/
theorem Slots.remove {n : Nat} {hsh : Nat → Nat} {S : Nat → Prop} {sl : Nat → Option Nat} {p k : Nat}
    (h : Slots n hsh S sl) (hk : k < n) (hp : sl k = some p) (hnext : sl ((k + 1) % n) = none) :
    Slots n hsh (fun q => S q ∧ q ≠ p) (upd sl k none) where
  sound j q hj hq := by
    by_cases e : j = k
    · subst e; rw [upd_same] at hq; cases hq
    · rw [upd_ne _ _ e] at hq
      refine ⟨h.sound j q hj hq, ?_⟩
      rintro rfl
      exact e (h.inj j k q hj hk hq hp)
  complete q hq := by
    obtain ⟨j, hj, hjq⟩ := h.complete q hq.1
    refine ⟨j, hj, ?_⟩
    rw [upd_ne _ _ (by rintro rfl; rw [hp] at hjq; cases hjq; exact hq.2 rfl)]; exact hjq
  inj j i q hj hi hjq hiq := by
    by_cases ej : j = k
    · subst ej; rw [upd_same] at hjq; cases hjq
    · by_cases ei : i = k
      · subst ei; rw [upd_same] at hiq; cases hiq
      · rw [upd_ne _ _ ej] at hjq; rw [upd_ne _ _ ei] at hiq; exact h.inj j i q hj hi hjq hiq
  reach j q hj hq := by
    by_cases e : j = k
    · subst e; rw [upd_same] at hq; cases hq
    · rw [upd_ne _ _ e] at hq
      obtain ⟨d, h1, h2, h3⟩ := h.reach j q hj hq
      refine ⟨d, h1, h2, fun e he => ?_⟩
      by_cases hc : (hsh q + e) % n = k
      · exfalso
        have hnx : (hsh q + (e + 1)) % n = (k + 1) % n := by
          rw [← hc, Nat.mod_add_mod, Nat.add_assoc]
        by_cases hed : e + 1 = d
        · rw [hed, h2] at hnx
          rw [← hnx, hq] at hnext
          cases hnext
        · have := h3 (e + 1) (by omega)
          rw [hnx] at this
          exact this hnext
      · rw [upd_ne _ _ hc]; exact h3 e he

/-- `p` is a sink or reachable from a handle. -/
def KeptR (refs : Nat → Nat) (s : Mgr) (p : Nat) : Prop := p < 2 ∨ ∃ h, 0 < refs h ∧ Reaches s.cells h p

structure SafeR (cfg : Cfg) (refs : Nat → Nat) (s : Mgr) : Prop where
  isolated : ∀ v k p, v < s.nvars → k ≤ (s.tabs v).mask → (s.tabs v).slots k = some p → ¬ KeptR refs s p →
    (s.tabs v).slots ((k + 1) % ((s.tabs v).mask + 1)) = none
  filled : ∀ v, v < s.nvars → 63 < (s.tabs v).mask →
    ∃ l : List Nat, l.Nodup ∧ (∀ p ∈ l, 2 ≤ p ∧ (s.cells p).index = v ∧ KeptR refs s p) ∧ (s.tabs v).mask + 1 < 8 * l.length
  memo : ∀ k, k < s.memo.size → ∀ r, (s.memo.entries k).r = some r →
    ∀ p, (s.memo.entries k).f = some p ∨ (s.memo.entries k).g = some p ∨ r = p ∨ (s.memo.entries k).h = cfg.addr p → KeptR refs s p

/-- The state after `free_node(p)`, `store_node(k, nullptr)`, `free++`. -/
def dropState (s : Mgr) (v k p : Nat) : Mgr :=
  { freedState s p with tabs := upd s.tabs v { s.tabs v with free := (s.tabs v).free + 1, slots := upd (s.tabs v).slots k none } }

section
variable {cfg : Cfg} {md : Md} {refs : Nat → Nat} {s : Mgr}

theorem Repr.freed {c : Nat → Cell} {p q : Nat} {t : Tree} (har : ∀ q, 2 ≤ q → (c q).live = true → (c q).lo ≠ p ∧ (c q).hi ≠ p)
    (hr : Repr c q t) : q ≠ p → Repr (freedCells c p) q t := by
  induction hr with
  | bot => intro _; exact .bot
  | top => intro _; exact .top
  | @node q tl th h2 hl hi _ _ ihl ihh =>
    intro hne
    obtain ⟨a1, a2, a3, _, a5, _⟩ := freedCells_eq c p q
    obtain ⟨n1, n2⟩ := har q h2 hl
    have ihl := ihl n1
    have ihh := ihh n2
    rw [← a1] at ihl
    rw [← a2] at ihh
    rw [← a3]
    exact .node h2 (a5.2 ⟨hl, hne⟩) (a3 ▸ hi) ihl ihh

theorem Repr.unfreed {c : Nat → Cell} {p q : Nat} {t : Tree} (hr : Repr (freedCells c p) q t) : Repr c q t := by
  induction hr with
  | bot => exact .bot
  | top => exact .top
  | @node q tl th h2 hl hi _ _ ihl ihh =>
    obtain ⟨a1, a2, a3, _, a5, _⟩ := freedCells_eq c p q
    rw [a1] at ihl
    rw [a2] at ihh
    rw [a3]
    exact .node h2 (a5.1 hl).1 (a3 ▸ hi) ihl ihh

theorem KeptR.mono {s' : Mgr} (hg : GcRun refs s s') {p : Nat} (h : KeptR refs s p) : KeptR refs s' p := by
  rcases h with h | ⟨q, hq, hr⟩
  · exact Or.inl h
  · exact Or.inr ⟨q, hq, hg.keeps.reaches hg.frees hq hr⟩

theorem KeptR.anti {s' : Mgr} (hf : Frees s s') {p : Nat} (h : KeptR refs s' p) : KeptR refs s p := by
  rcases h with h | ⟨q, hq, hr⟩
  · exact Or.inl h
  · exact Or.inr ⟨q, hq, hf.reaches hr⟩

theorem KeptR.pos (h : HeapOk refs s) {p : Nat} (hl : (s.cells p).live = true) (hk : KeptR refs s p) : 0 < (s.cells p).xref := by
  rcases hk with hk | ⟨q, hq, hr⟩
  · have := h.count p hl
    rw [if_pos hk] at this
    omega
  · exact h.reach_pos hq hr

/-- Freeing one dead node. -/
theorem drop_ok (hi : Inv cfg md refs s) (hs : SafeR cfg refs s) {v k p : Nat} (hv : v < s.nvars) (hk : k ≤ (s.tabs v).mask)
    (hp : (s.tabs v).slots k = some p) (hx : (s.cells p).xref ≤ 0) :
    Inv cfg md refs (dropState s v k p) ∧ SafeR cfg refs (dropState s v k p) ∧ GcRun refs s (dropState s v k p) ∧
      (s.tabs v).slots ((k + 1) % ((s.tabs v).mask + 1)) = none := by
  have htab := hi.tab v hv
  have hh := hi.heapOk
  obtain ⟨p2, hl, hidx⟩ := htab.slots.sound k p (by omega) hp
  obtain ⟨_, hr0, har⟩ := hh.dead hl hx
  have hnk : ¬ KeptR refs s p := fun h => by have := h.pos hh hl; omega
  have hnext := hs.isolated v k p hv hk hp hnk
  have g1 := freedState_run hh hl hx
  have hg : GcRun refs s (dropState s v k p) := g1.trans (.congr g1.ok rfl rfl rfl rfl)
  have hlive : ∀ q, ((dropState s v k p).cells q).live = true ↔ (s.cells q).live = true ∧ q ≠ p :=
    fun q => (freedCells_eq s.cells p q).2.2.2.2.1
  have hsame := hg.frees.same
  have hrep : ∀ q t, Repr s.cells q t → q ≠ p → Repr (dropState s v k p).cells q t := fun q t h hne => h.freed har hne
  have hrep' : ∀ q t, Repr (dropState s v k p).cells q t → Repr s.cells q t := fun q t h => h.unfreed
  have hhash : ∀ q, hashCode (dropState s v k p).cells ((dropState s v k p).cells q).lo ((dropState s v k p).cells q).hi =
      hashCode s.cells (s.cells q).lo (s.cells q).hi := by
    intro q
    unfold hashCode
    rw [(hsame q).1, (hsame q).2.1, (hsame _).2.2.2, (hsame _).2.2.2]
  have hml := htab.mask_le
  have hfl := htab.free_le
  have hcf := countFree_remove (sl := (s.tabs v).slots) (n := (s.tabs v).mask + 1) (by omega) hp
  -- the table of `v`
  have hslots : Slots ((s.tabs v).mask + 1)
      (fun q => hashCode (dropState s v k p).cells ((dropState s v k p).cells q).lo ((dropState s v k p).cells q).hi)
      (fun q => 2 ≤ q ∧ ((dropState s v k p).cells q).live = true ∧ ((dropState s v k p).cells q).index = v)
      (upd (s.tabs v).slots k none) := by
    refine (htab.slots.remove (by omega) hp hnext).congr ?_ (fun q _ => hhash q)
    intro q
    rw [hlive, (hsame q).2.2.1]
    constructor
    · rintro ⟨a, ⟨b, c⟩, d⟩; exact ⟨⟨a, b, d⟩, c⟩
    · rintro ⟨⟨a, b, d⟩, c⟩; exact ⟨a, ⟨b, c⟩, d⟩
  refine ⟨?_, ?_, hg, hnext⟩
  · constructor
    · rw [(hsame 0).1, (hsame 0).2.1, (hsame 0).2.2.1]; exact hi.bot
    · rw [(hsame 1).1, (hsame 1).2.1, (hsame 1).2.2.1]; exact hi.top
    · exact hi.nv
    · intro q q2 hq
      obtain ⟨hq1, hq2⟩ := (hlive q).1 hq
      obtain ⟨h1, h2, t, h3⟩ := hi.node q q2 hq1
      rw [(hsame q).1, (hsame q).2.1, (hsame q).2.2.1]
      exact ⟨h1, h2, t, hrep q t h3 hq2⟩
    · intro a b a2 b2 ha hb
      rw [(hsame a).1, (hsame a).2.1, (hsame a).2.2.1, (hsame b).1, (hsame b).2.1, (hsame b).2.2.1]
      exact hi.uniq a b a2 b2 ((hlive a).1 ha).1 ((hlive b).1 hb).1
    · intro hm q t hq; exact hi.ord hm q t (hrep' q t hq)
    · intro q t hq; exact hi.ht q t (hrep' q t hq)
    · intro w hw
      by_cases e : w = v
      · subst e
        show TabOk _ w (upd s.tabs w _ w)
        rw [upd_same]
        refine ⟨htab.pow, htab.cap, hslots, ?_, ?_, htab.page, ?_⟩
        · show (s.tabs w).free + 1 = countFree (upd (s.tabs w).slots k none) ((s.tabs w).mask + 1)
          rw [hcf, htab.free]
        · have := htab.fill
          show (s.tabs w).mask + 1 ≤ 2 * ((s.tabs w).free + 1) + 2
          omega
        · intro hne
          show (s.tabs w).mask + 1 < 8 * ((s.tabs w).mask + 1 - ((s.tabs w).free + 1))
          have hne' : (s.tabs w).mask ≠ 63 := hne
          obtain ⟨l, l1, l2, l3⟩ := hs.filled w hv (by omega)
          have := stored_le (sl := upd (s.tabs w).slots k none) ((s.tabs w).mask + 1) l l1 (fun q hq => by
            obtain ⟨a, b, c⟩ := l2 q hq
            have hql : ((dropState s w k p).cells q).live = true := by
              rcases c with c | ⟨h, c1, c2⟩
              · omega
              · exact hg.keeps h q c1 c2
            exact hslots.complete q ⟨a, hql, by rw [(hsame q).2.2.1]; exact b⟩)
          rw [hcf, ← htab.free] at this
          omega
      · show TabOk _ w (upd s.tabs v _ w)
        rw [upd_ne _ _ e]
        have htw := hi.tab w hw
        refine ⟨htw.pow, htw.cap, ?_, htw.free, htw.fill, htw.page, htw.dense⟩
        refine htw.slots.congr ?_ (fun q _ => hhash q)
        intro q
        rw [hlive, (hsame q).2.2.1]
        constructor
        · rintro ⟨a, ⟨b, c⟩, d⟩; exact ⟨a, b, d⟩
        · rintro ⟨a, b, d⟩
          refine ⟨a, ⟨b, ?_⟩, d⟩
          rintro rfl
          exact e (d.symm.trans hidx)
    · have hpl := (hi.pool.live p).1 hl
      refine ⟨hi.pool.pages, hi.pool.off, hi.pool.off2, ?_, ?_, ?_, ?_⟩
      · intro q
        rw [hlive, hi.pool.live]
        show _ ↔ q < s.pool.hw ∧ q ∉ p :: s.pool.avail
        simp only [List.mem_cons, not_or]
        constructor
        · rintro ⟨⟨a, b⟩, c⟩; exact ⟨a, c, b⟩
        · rintro ⟨a, c, b⟩; exact ⟨⟨a, b⟩, c⟩
      · intro q hq
        rcases List.mem_cons.1 (show q ∈ p :: s.pool.avail from hq) with rfl | hq
        · exact ⟨p2, hpl.1⟩
        · exact hi.pool.avail q hq
      · exact List.nodup_cons.2 ⟨hpl.2, hi.pool.nodup⟩
      · show s.pool.total - 1 + (p :: s.pool.avail).length = s.pool.hw
        have h1 := hi.pool.total
        have hle : s.pool.avail.length + 1 ≤ s.pool.hw := by
          have hn : (p :: s.pool.avail).Nodup := List.nodup_cons.2 ⟨hpl.2, hi.pool.nodup⟩
          have := stored_le (sl := fun i => some i) s.pool.hw _ hn (fun q hq => by
            rcases List.mem_cons.1 hq with rfl | hq
            · exact ⟨_, hpl.1, rfl⟩
            · exact ⟨_, (hi.pool.avail q hq).2, rfl⟩)
          simp only [List.length_cons] at this
          omega
        simp only [List.length_cons]
        omega
    · refine ⟨hi.memo.pow, hi.memo.mask, ?_, ?_⟩
      rotate_left
      · intro i hik hr
        have h := hi.memo.place i hik hr
        unfold entryHash cacheHash at h ⊢
        rw [(hsame _).2.2.2, (hsame _).2.2.2]
        exact h
      intro i hik r hr
      obtain ⟨f, g, tf, tg, tr, e1, e2, r1, r2, r3, hc⟩ := hi.memo.entry i hik r hr
      have hm := hs.memo i hik r hr
      have hne : ∀ q, KeptR refs s q → q ≠ p := by rintro q hq rfl; exact hnk hq
      refine ⟨f, g, tf, tg, tr, e1, e2, hrep f tf r1 (hne _ (hm f (Or.inl e1))), hrep g tg r2 (hne _ (hm g (Or.inr (Or.inl e2)))),
        hrep r tr r3 (hne _ (hm r (Or.inr (Or.inr (Or.inl rfl))))), ?_⟩
      rcases hc with hc | hc | ⟨q, tq, e3, r4, hc⟩
      · exact Or.inl hc
      · exact Or.inr (Or.inl hc)
      · exact Or.inr (Or.inr ⟨q, tq, e3, hrep q tq r4 (hne _ (hm q (Or.inr (Or.inr (Or.inr e3))))), hc⟩)
    · exact ⟨hg.ok.count, hg.ok.held⟩
    · intro q q2 hq; exact hi.mark q q2 ((hlive q).1 hq).1
    · exact hi.smark
  · constructor
    · intro w i q hw hiw hiq hnq
      have hnq' : ¬ KeptR refs s q := fun h => hnq (h.mono hg)
      by_cases e : w = v
      · subst e
        change i ≤ (upd s.tabs w _ w).mask at hiw
        change (upd s.tabs w _ w).slots i = some q at hiq
        show (upd s.tabs w _ w).slots ((i + 1) % ((upd s.tabs w _ w).mask + 1)) = none
        rw [upd_same] at *
        change upd (s.tabs w).slots k none i = some q at hiq
        show upd (s.tabs w).slots k none ((i + 1) % ((s.tabs w).mask + 1)) = none
        by_cases hik : i = k
        · subst hik; rw [upd_same] at hiq; cases hiq
        · rw [upd_ne _ _ hik] at hiq
          have := hs.isolated w i q hv hiw hiq hnq'
          by_cases hc : (i + 1) % ((s.tabs w).mask + 1) = k
          · rw [hc, upd_same]
          · rw [upd_ne _ _ hc]; exact this
      · change i ≤ (upd s.tabs v _ w).mask at hiw
        change (upd s.tabs v _ w).slots i = some q at hiq
        show (upd s.tabs v _ w).slots ((i + 1) % ((upd s.tabs v _ w).mask + 1)) = none
        rw [upd_ne _ _ e] at *
        exact hs.isolated w i q hw hiw hiq hnq'
    · intro w hw hm
      have hmask : ((dropState s v k p).tabs w).mask = (s.tabs w).mask := by
        show (upd s.tabs v _ w).mask = _
        by_cases e : w = v
        · subst e; rw [upd_same]
        · rw [upd_ne _ _ e]
      rw [hmask] at hm ⊢
      obtain ⟨l, l1, l2, l3⟩ := hs.filled w hw hm
      refine ⟨l, l1, fun q hq => ?_, l3⟩
      obtain ⟨a, b, c⟩ := l2 q hq
      exact ⟨a, by rw [(hsame q).2.2.1]; exact b, c.mono hg⟩
    · intro i hik r hr q hq
      exact (hs.memo i hik r hr q hq).mono hg
end
end LBDD
