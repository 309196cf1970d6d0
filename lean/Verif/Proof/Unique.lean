import Verif.Proof.Inv
/-! `unique_find`: growth of the table, allocation and insertion of a node. -/
namespace LBDD

section
variable {cfg : Cfg} {md : Md} {refs : Nat → Nat} {s : Mgr}

theorem sub64_eq {a b : Nat} (h : b ≤ a) (ha : a < 2 ^ 64) : sub64 a b = a - b := by
  unfold sub64
  rw [Nat.mod_eq_of_lt (a := b) (by omega)]
  omega

theorem TabOk.free_le {cells : Nat → Cell} {v : Nat} {t : VarTable} (h : TabOk cells v t) : t.free ≤ t.mask + 1 := by
  rw [h.free]; exact countFree_le _ _

theorem TabOk.mask_le {cells : Nat → Cell} {v : Nat} {t : VarTable} (h : TabOk cells v t) :
    64 ≤ t.mask + 1 ∧ t.mask + 1 ≤ 524288 := by
  obtain ⟨k, h1, h2, h3⟩ := h.pow
  rw [h3]
  constructor
  · exact Nat.pow_le_pow_right (n := 2) (by omega) h1
  · exact Nat.pow_le_pow_right (n := 2) (by omega) h2

theorem TabOk.free_pos {cells : Nat → Cell} {v : Nat} {t : VarTable} (h : TabOk cells v t) :
    0 < countFree t.slots (t.mask + 1) := by
  have := h.fill; have := h.mask_le; have := h.free; omega

theorem overfull_iff {cells : Nat → Cell} {v : Nat} {t : VarTable} (h : TabOk cells v t) :
    overfull t = true ↔ t.mask + 1 < 2 * (t.mask + 1 - t.free) := by
  have := h.mask_le
  unfold overfull
  rw [sub64_eq h.free_le (by omega)]
  simp

/-- `unique_table_lookup` in a good table. -/
theorem lookup_ok {v l h : Nat} {t : VarTable} (ht : TabOk s.cells v t) :
    (tableLookup s.cells t l h = .ok none ∧
      ∀ p, 2 ≤ p → (s.cells p).live = true → (s.cells p).index = v →
        ¬ ((s.cells p).lo = l ∧ (s.cells p).hi = h)) ∨
    (∃ p, tableLookup s.cells t l h = .ok (some p) ∧ 2 ≤ p ∧ (s.cells p).live = true ∧
      (s.cells p).index = v ∧ (s.cells p).lo = l ∧ (s.cells p).hi = h) := by
  obtain ⟨k, _, _, hk⟩ := ht.pow
  rcases tableLookup_ok (l := l) (h := h) hk ht.cap ht.slots (fun p hp => hp.2.1) ht.free_pos with ⟨h1, h2⟩ | ⟨p, h1, h2, h3⟩
  · exact Or.inl ⟨h1, fun p a b c => h2 p ⟨a, b, c⟩⟩
  · exact Or.inr ⟨p, h1, h2.1, h2.2.1, h2.2.2, h3⟩

/-- Replacing the table of one variable by another good one. -/
theorem Inv.setTab (hi : Inv cfg md refs s) {v : Nat} {t : VarTable} (ht : TabOk s.cells v t) :
    Inv cfg md refs { s with tabs := upd s.tabs v t } where
  bot := hi.bot
  top := hi.top
  nv := hi.nv
  node := hi.node
  uniq := hi.uniq
  ord := hi.ord
  ht := hi.ht
  tab w hw := by
    by_cases e : w = v
    · subst e; simp only [upd_same]; exact ht
    · simp only [upd_ne _ _ e]; exact hi.tab w hw
  pool := ⟨hi.pool.pages, hi.pool.off, hi.pool.off2, hi.pool.live, hi.pool.avail, hi.pool.nodup, hi.pool.total⟩
  memo := ⟨hi.memo.pow, hi.memo.mask, hi.memo.entry, hi.memo.place⟩
  ref := ⟨hi.ref.count, hi.ref.live⟩
  mark := hi.mark
  smark := hi.smark

theorem pageCapFor_ok {k : Nat} (h1 : 7 ≤ k) (h2 : k ≤ 19) : ∃ c, pageCapFor (2 ^ k - 1) = some c ∧ 2 ^ k ≤ c := by
  have : k = 7 ∨ k = 8 ∨ k = 9 ∨ k = 10 ∨ k = 11 ∨ k = 12 ∨ k = 13 ∨ k = 14 ∨ k = 15 ∨ k = 16 ∨ k = 17 ∨
    k = 18 ∨ k = 19 := by omega
  rcases this with rfl | rfl | rfl | rfl | rfl | rfl | rfl | rfl | rfl | rfl | rfl | rfl | rfl <;>
    exact ⟨_, rfl, by decide⟩

theorem freePageOk_ok {k : Nat} (h1 : 6 ≤ k) (h2 : k ≤ 19) : freePageOk (2 ^ k - 1) = true := by
  have : k = 6 ∨ k = 7 ∨ k = 8 ∨ k = 9 ∨ k = 10 ∨ k = 11 ∨ k = 12 ∨ k = 13 ∨ k = 14 ∨ k = 15 ∨ k = 16 ∨ k = 17 ∨
    k = 18 ∨ k = 19 := by omega
  rcases this with rfl | rfl | rfl | rfl | rfl | rfl | rfl | rfl | rfl | rfl | rfl | rfl | rfl | rfl <;> rfl

/-- `double_cache`: either the table doubles, keeping all its nodes, or the capacity exception. -/
theorem doubleCache_ok (hi : Inv cfg md refs s) {v : Nat} (hv : v < s.nvars)
    (ho : overfull (s.tabs v) = true) :
    M.Sat (doubleCache cfg v) s
      (fun _ s' => ∃ t, s' = { s with tabs := upd s.tabs v t } ∧ TabOk s.cells v t ∧
        t.mask + 1 = 2 * ((s.tabs v).mask + 1) ∧ t.timer = (s.tabs v).timer ∧
        2 * (t.mask + 1 - t.free) ≤ t.mask + 1)
      (Thrown cfg md refs s) := by
  have ht := hi.tab v hv
  have hover := (overfull_iff ht).1 ho
  obtain ⟨k, hk6, hk19, hk⟩ := ht.pow
  have hml := ht.mask_le
  have hfl := ht.free_le
  have hfree := ht.free
  unfold doubleCache
  refine M.Sat_get_bind ?_
  simp only
  rw [if_neg (by omega)]
  refine M.Sat_assert_bind (by simp [nrFreeSlots, hfree]) ?_
  refine M.Sat_modify_bind ?_
  refine M.Sat_bind.2 ?_
  have hnm : (s.tabs v).mask + (s.tabs v).mask + 1 = 2 ^ (k + 1) - 1 := by
    rw [Nat.pow_succ]; omega
  by_cases hlast : k = 19
  · subst hlast
    have h2 : (2 : Nat) ^ (19 + 1) - 1 = 1048575 := by decide
    have hm : (s.tabs v).mask + 1 = 524288 := hk.trans (by decide)
    unfold newPage
    rw [hnm, h2]
    have : pageCapFor 1048575 = none := rfl
    rw [this]
    simp only [if_true]
    refine ⟨⟨.refl _, Nat.le_refl _, Nat.le_refl _⟩, v, hv, ?_, ?_, ?_⟩
    · simp [upd]
    · simp only [upd_same]
      rcases ht.page with h | h
      · omega
      · rw [show (s.tabs v).mask = 524287 by omega] at h
        exact (Option.some.inj h).symm
    · obtain ⟨l, l1, l2, l3⟩ := occupied_list (sl := (s.tabs v).slots) _ ht.slots.inj
      refine ⟨l, l1, by omega, ?_, s.tabs, hi⟩
      intro p hp
      obtain ⟨i, h1, h2⟩ := l3 p hp
      exact ht.slots.sound i p h1 h2
  · obtain ⟨c, hc1, hc2⟩ := pageCapFor_ok (k := k + 1) (by omega) (by omega)
    unfold newPage
    rw [hnm, hc1]
    simp only [M.Sat_pure]
    have h1 : 2 ^ (k + 1) = 2 * 2 ^ k := by rw [Nat.pow_succ]; omega
    obtain ⟨t', r1, r2, r3, r4, r5, r6⟩ := rehash_ok (cells := s.cells) (old := s.tabs v) (k := k + 1) rfl
      ht.slots.inj ht.cap ((s.tabs v).mask + 1) 0
      { s.tabs v with mask := 2 ^ (k + 1) - 1, cap := c, slots := fun _ => none }
      (by omega) (show 2 ^ (k + 1) - 1 + 1 = 2 ^ (k + 1) by omega)
      (show 2 ^ (k + 1) - 1 + 1 ≤ c by omega)
      (show (s.tabs v).mask + 1 < 2 ^ (k + 1) - 1 + 1 by omega)
      (by
        refine (Slots.empty _ (fun p => hashCode s.cells (s.cells p).lo (s.cells p).hi)).congr ?_ ?_
        · intro p
          constructor
          · rintro ⟨i, hi, _⟩; omega
          · exact fun h => h.elim
        · intro p h; exact h.elim)
      (by show countFree (fun _ => none) _ + 0 = _ + 0; rw [countFree_empty])
    refine M.Sat_lift_bind r1 ?_
    refine M.Sat_assert_bind (by
      rw [show (s.tabs v).mask = 2 ^ k - 1 by omega]; exact freePageOk_ok hk6 hk19) ?_
    simp only [LBDD.setTab, M.Sat_modify]
    have hsz : 2 ^ (k + 1) - 1 + 1 = 2 ^ (k + 1) := by omega
    simp only [hsz] at r5 r6
    simp only at r2 r3 r4
    refine ⟨{ t' with free := (s.tabs v).free + ((s.tabs v).mask + 1) }, ?_, ?_, ?_, r4, ?_⟩
    · have : upd (upd s.tabs v { s.tabs v with mask := 2 ^ (k + 1) - 1 }) v
          { t' with free := (s.tabs v).free + ((s.tabs v).mask + 1) } =
          upd s.tabs v { t' with free := (s.tabs v).free + ((s.tabs v).mask + 1) } := by
        funext i; by_cases e : i = v <;> simp [upd, e]
      simp only [this]
    · refine ⟨⟨k + 1, by omega, by omega, ?_⟩, ?_, ?_, ?_, ?_, ?_, ?_⟩
      · show t'.mask + 1 = _; rw [r2]; omega
      · show t'.mask + 1 ≤ t'.cap; rw [r2, r3]; omega
      · show Slots (t'.mask + 1) _ _ t'.slots
        rw [r2, hsz]
        refine r5.congr ?_ (fun _ _ => rfl)
        intro p
        constructor
        · intro hp; exact ht.slots.complete p hp
        · rintro ⟨i, hi, hp⟩; exact ht.slots.sound i p hi hp
      · show (s.tabs v).free + ((s.tabs v).mask + 1) = countFree t'.slots (t'.mask + 1)
        rw [r2, hsz]; omega
      · show t'.mask + 1 ≤ 2 * ((s.tabs v).free + ((s.tabs v).mask + 1)) + 2
        rw [r2]; omega
      · right
        show pageCapFor t'.mask = some t'.cap
        rw [r2, r3]; exact hc1
      · intro _
        show t'.mask + 1 < 8 * (t'.mask + 1 - ((s.tabs v).free + ((s.tabs v).mask + 1)))
        rw [r2]; omega
    · show t'.mask + 1 = _; rw [r2]; omega
    · show 2 * (t'.mask + 1 - ((s.tabs v).free + ((s.tabs v).mask + 1))) ≤ t'.mask + 1
      have := ht.fill
      rw [r2]; omega

/-! ### allocation -/

theorem Pool.reserve_ok (hp : PoolOk s) :
    2 ≤ s.pool.reserve.1 ∧ (s.cells s.pool.reserve.1).live = false ∧
    s.pool.reserve.2.total = s.pool.total + 1 ∧
    1 ≤ s.pool.reserve.2.pages ∧ s.pool.reserve.2.off ≤ 4096 ∧
    s.pool.reserve.2.total + s.pool.reserve.2.avail.length = s.pool.reserve.2.hw ∧
    (∀ q, q < s.pool.reserve.2.hw ∧ q ∉ s.pool.reserve.2.avail ↔
      q = s.pool.reserve.1 ∨ (q < s.pool.hw ∧ q ∉ s.pool.avail)) ∧
    (∀ q, q ∈ s.pool.reserve.2.avail → q ∈ s.pool.avail) ∧ s.pool.reserve.2.avail.Nodup ∧
    (s.pool.reserve.2.hw = s.pool.hw ∨
      (s.pool.reserve.2.hw = s.pool.hw + 1 ∧ s.pool.reserve.1 = s.pool.hw)) := by
  have hpg := hp.pages
  have hoff := hp.off
  have hoff2 := hp.off2
  have hlive := hp.live
  have hav := hp.avail
  have hnd := hp.nodup
  have htot := hp.total
  unfold Pool.reserve Pool.hw at *
  cases hav' : s.pool.avail with
  | cons r rest =>
    simp only [hav'] at *
    have hr := hav r (by simp)
    have hnr := (List.nodup_cons.1 hnd).1
    refine ⟨hr.1, ?_, trivial, hpg, hoff, ?_, ?_, ?_, (List.nodup_cons.1 hnd).2, Or.inl trivial⟩
    · cases hb : (s.cells r).live with
      | false => rfl
      | true => have := (hlive r).1 hb; simp at this
    · simp only [List.length_cons] at htot; omega
    · intro q
      simp only [List.mem_cons, not_or]
      constructor
      · rintro ⟨h1, h2⟩
        by_cases e : q = r
        · exact Or.inl e
        · exact Or.inr ⟨h1, e, h2⟩
      · rintro (rfl | ⟨h1, _, h2⟩)
        · exact ⟨hr.2, hnr⟩
        · exact ⟨h1, h2⟩
    · intro q hq; exact List.mem_cons_of_mem _ hq
  | nil =>
    simp only [hav'] at *
    have hnl : (s.cells ((s.pool.pages - 1) * 4096 + s.pool.off)).live = false := by
      cases hb : (s.cells ((s.pool.pages - 1) * 4096 + s.pool.off)).live with
      | false => rfl
      | true => have := (hlive _).1 hb; omega
    split
    · rename_i hlt
      refine ⟨hoff2, hnl, rfl, hpg, by simp only; omega, ?_, ?_, ?_, hnd, Or.inr ⟨by simp only; omega, rfl⟩⟩
      · simp at htot ⊢; omega
      · intro q; simp; omega
      · intro q hq; exact hq
    · rename_i hlt
      have e : s.pool.pages * 4096 = (s.pool.pages - 1) * 4096 + s.pool.off := by
        have : s.pool.off = 4096 := by omega
        rw [this, ← Nat.succ_mul]; congr 1; omega
      have e2 : (s.pool.pages + 1 - 1) * 4096 = s.pool.pages * 4096 := by rw [Nat.add_sub_cancel]
      have hnl' : (s.cells (s.pool.pages * 4096)).live = false := (congrArg (fun i => (s.cells i).live) e).trans hnl
      simp only [e2, List.length_nil, List.not_mem_nil, not_false_eq_true, and_true] at htot ⊢
      refine ⟨Nat.le_trans hoff2 (Nat.le_of_eq e.symm), hnl', trivial, by omega, by omega, ?_, ?_, fun q hq => hq, hnd,
        Or.inr ⟨congrArg (· + 1) e, e⟩⟩
      · exact congrArg (· + 1) (htot.trans e.symm)
      · intro q; rw [← e]; omega

/-- The heap after `init_new_node`. -/
def newCells (cfg : Cfg) (s : Mgr) (p v l h : Nat) : Nat → Cell :=
  let c1 := upd s.cells h { s.cells h with xref := (s.cells h).xref + 1 }
  let c2 := upd c1 l { c1 l with xref := (c1 l).xref + 1 }
  upd c2 p ⟨l, h, v, cfg.rng s.rngPos, 0, true⟩

theorem newCells_self (p v l h : Nat) :
    newCells cfg s p v l h p = ⟨l, h, v, cfg.rng s.rngPos, 0, true⟩ := by simp [newCells]

theorem newCells_ne {p v l h q : Nat} (hq : q ≠ p) (hlh : l ≠ h) :
    (newCells cfg s p v l h q).live = (s.cells q).live ∧ (newCells cfg s p v l h q).lo = (s.cells q).lo ∧
    (newCells cfg s p v l h q).hi = (s.cells q).hi ∧ (newCells cfg s p v l h q).index = (s.cells q).index ∧
    (newCells cfg s p v l h q).hashKey = (s.cells q).hashKey ∧
    (newCells cfg s p v l h q).xref = (s.cells q).xref + (if l = q then 1 else 0) + (if h = q then 1 else 0) := by
  by_cases e1 : q = l
  · subst e1
    simp [newCells, upd, hq, hlh]
    rw [if_neg (fun hh => hlh hh.symm)]; simp
  · by_cases e2 : q = h
    · subst e2
      simp [newCells, upd, hq, e1, hlh]
    · simp [newCells, upd, hq, e1, e2, Ne.symm e1, Ne.symm e2]

theorem arcsTo_congr {c c' : Nat → Cell} {q n : Nat}
    (h : ∀ i, 2 ≤ i → i < n → (c' i).live = (c i).live ∧ ((c i).live = true → (c' i).lo = (c i).lo ∧ (c' i).hi = (c i).hi)) :
    arcsTo c' q n = arcsTo c q n := by
  induction n with
  | zero => rfl
  | succ n ih =>
    simp only [arcsTo]
    rw [ih (fun i h2 hi => h i h2 (by omega))]
    by_cases h2 : 2 ≤ n
    · obtain ⟨a, b⟩ := h n h2 (by omega)
      rw [a]
      by_cases hl : (c n).live = true
      · obtain ⟨b1, b2⟩ := b hl; rw [b1, b2]
      · simp [hl]
    · simp [h2]

theorem arcsTo_insert {c c' : Nat → Cell} {p q n : Nat} (h2 : 2 ≤ p) (hpn : p < n) (hdead : (c p).live = false)
    (hlive : (c' p).live = true)
    (h : ∀ i, i ≠ p → (c' i).live = (c i).live ∧ (c' i).lo = (c i).lo ∧ (c' i).hi = (c i).hi) :
    arcsTo c' q n = arcsTo c q n + (if (c' p).lo = q then 1 else 0) + (if (c' p).hi = q then 1 else 0) := by
  induction n with
  | zero => omega
  | succ n ih =>
    simp only [arcsTo]
    by_cases e : p = n
    · subst e
      rw [arcsTo_congr (c := c) (fun i _ hi => by
        obtain ⟨a, b, d⟩ := h i (by omega)
        exact ⟨a, fun _ => ⟨b, d⟩⟩)]
      have hn : ¬ (2 ≤ p ∧ (c p).live = true) := by simp [hdead]
      rw [if_pos ⟨h2, hlive⟩, if_neg hn]
      omega
    · rw [ih (by omega)]
      obtain ⟨a, b, d⟩ := h n (by omega)
      rw [a, b, d]
      omega

theorem arcsTo_zero {c : Nat → Cell} {q n : Nat}
    (h : ∀ i, 2 ≤ i → (c i).live = true → (c i).lo ≠ q ∧ (c i).hi ≠ q) : arcsTo c q n = 0 := by
  induction n with
  | zero => rfl
  | succ n ih =>
    simp only [arcsTo, ih]
    split
    · rename_i hh
      obtain ⟨a, b⟩ := h n hh.1 hh.2
      simp [a, b]
    · rfl

/-- The state after a new node was allocated, initialised and stored in slot `k`. -/
def newState (cfg : Cfg) (s : Mgr) (v l h k : Nat) : Mgr :=
  { s with
    cells := newCells cfg s s.pool.reserve.1 v l h
    marks := upd s.marks s.pool.reserve.1 false
    pool := s.pool.reserve.2
    rngPos := s.rngPos + 1
    tabs := upd s.tabs v { s.tabs v with
      free := (s.tabs v).free - 1, slots := upd (s.tabs v).slots k (some s.pool.reserve.1) } }

theorem newCells_ext (hi : Inv cfg md refs s) {v l h : Nat} (hlh : l ≠ h) :
    CellsExt s.cells (newCells cfg s s.pool.reserve.1 v l h) := by
  intro q hq
  have := (Pool.reserve_ok hi.pool).2.1
  have hne : q ≠ s.pool.reserve.1 := by rintro rfl; simp [hq] at this
  obtain ⟨a, b, c, d, e, _⟩ := newCells_ne (cfg := cfg) (s := s) (v := v) hne hlh
  exact ⟨a.trans hq, b, c, d, e⟩

theorem EntryOk.ext {c c' : Nat → Cell} (h : CellsExt c c') {e : MemoEntry} (he : EntryOk cfg md c e) :
    EntryOk cfg md c' e := by
  intro r hr
  obtain ⟨f, g, tf, tg, tr, h1, h2, h3, h4, h5, h6⟩ := he r hr
  refine ⟨f, g, tf, tg, tr, h1, h2, h3.ext h, h4.ext h, h5.ext h, ?_⟩
  rcases h6 with h6 | h6 | ⟨q, tq, a, b, c⟩
  · exact Or.inl h6
  · exact Or.inr (Or.inl h6)
  · exact Or.inr (Or.inr ⟨q, tq, a, b.ext h, c⟩)

/-- An entry with a result has the same slot as long as its operands live. -/
theorem Inv.place_ext (hi : Inv cfg md refs s) {c' : Nat → Cell} (h : CellsExt s.cells c') {k : Nat} (hk : k < s.memo.size)
    (hr : (s.memo.entries k).r.isSome = true) : entryHash c' (s.memo.entries k) % s.memo.size = k := by
  obtain ⟨r, hr'⟩ := Option.isSome_iff_exists.1 hr
  obtain ⟨f, g, tf, tg, tr, h1, h2, h3, h4, h5, _⟩ := hi.memo.entry k hk r hr'
  have e : entryHash c' (s.memo.entries k) = entryHash s.cells (s.memo.entries k) := by
    unfold entryHash cacheHash
    rw [h1, h2]
    obtain ⟨_, _, _, _, e1⟩ := h f (hi.live_of h3)
    obtain ⟨_, _, _, _, e2⟩ := h g (hi.live_of h4)
    simp only [Option.getD_some]
    rw [e1, e2]
  rw [e]
  exact hi.memo.place k hk hr

/-- Allocating a new node keeps the invariant. -/
theorem newState_inv (hi : Inv cfg md refs s) {v l h k : Nat} {tl th : Tree} (hv : v < s.nvars) (hlh : l ≠ h)
    (hl : Repr s.cells l tl) (hh : Repr s.cells h th)
    (hord : md.ordered → ∀ w, tl.Mem w ∨ th.Mem w → v < w)
    (hnew : ∀ p, 2 ≤ p → (s.cells p).live = true → (s.cells p).index = v →
      ¬ ((s.cells p).lo = l ∧ (s.cells p).hi = h))
    (hk : k < (s.tabs v).mask + 1) (hkn : (s.tabs v).slots k = none)
    (hkr : Reach ((s.tabs v).mask + 1) (s.tabs v).slots (hashCode s.cells l h) k)
    (hfill : 2 * ((s.tabs v).mask + 1 - (s.tabs v).free) ≤ (s.tabs v).mask + 1) :
    Inv cfg md refs (newState cfg s v l h k) ∧ Ext s (newState cfg s v l h k) ∧
      Repr (newState cfg s v l h k).cells s.pool.reserve.1 (.node v tl th) := by
  obtain ⟨p2, pdead, ptot, ppg, poff, phw, plive, pav, pnd, phw2⟩ := Pool.reserve_ok hi.pool
  have hext := newCells_ext (cfg := cfg) (v := v) hi hlh
  have hll := hi.live_of hl
  have hhl := hi.live_of hh
  have hlp : l ≠ s.pool.reserve.1 := by rintro rfl; simp [hll] at pdead
  have hhp : h ≠ s.pool.reserve.1 := by rintro rfl; simp [hhl] at pdead
  have hvt : v < topsinkIndex := Nat.lt_of_lt_of_le hv hi.nv
  have hself := newCells_self (cfg := cfg) (s := s) s.pool.reserve.1 v l h
  generalize hp : s.pool.reserve.1 = p at *
  have hne : ∀ q, q ≠ p → _ := fun q hq => newCells_ne (cfg := cfg) (s := s) (p := p) (v := v) (l := l) (h := h) hq hlh
  generalize hc : newCells cfg s p v l h = c' at *
  have hrepr : Repr c' p (.node v tl th) := by
    have := Repr.node (cells := c') (p := p) p2 (by rw [hself]) (by rw [hself]; exact hvt)
      (tl := tl) (th := th) (by rw [hself]; exact hl.ext hext) (by rw [hself]; exact hh.ext hext)
    rwa [hself] at this
  have hlive' : ∀ q, (c' q).live = true ↔ q = p ∨ (s.cells q).live = true := by
    intro q
    by_cases e : q = p
    · subst e; rw [hself]; simp
    · rw [(hne q e).1]; simp [e]
  -- nothing else is represented in the new heap
  have hinv : ∀ q t, Repr c' q t → (q = p ∧ t = .node v tl th) ∨ Repr s.cells q t := by
    intro q t hq
    by_cases e : q = p
    · subst e; exact Or.inl ⟨rfl, hq.fn hrepr⟩
    · right
      have hql : (s.cells q).live = true := by
        by_cases h2 : 2 ≤ q
        · obtain ⟨_, _, _, hl', _⟩ := hq.inv h2
          exact ((hlive' q).1 hl').resolve_left e
        · have : q = 0 ∨ q = 1 := by omega
          rcases this with rfl | rfl
          · exact hi.live0
          · exact hi.live1
      obtain ⟨t0, ht0⟩ := hi.repr hql
      have := (ht0.ext hext).fn hq
      subst this
      exact ht0
  have hns : newState cfg s v l h k = { s with
      cells := c', marks := upd s.marks p false, pool := s.pool.reserve.2, rngPos := s.rngPos + 1,
      tabs := upd s.tabs v { s.tabs v with free := (s.tabs v).free - 1, slots := upd (s.tabs v).slots k (some p) } } := by
    simp only [newState, hp, hc]
  rw [hns]
  refine ⟨?_, ⟨hext, rfl, Nat.le_succ _⟩, hrepr⟩
  have hp0 : (0 : Nat) ≠ p := by omega
  have hp1 : (1 : Nat) ≠ p := by omega
  have htab := hi.tab v hv
  constructor
  · show (c' 0).index = _ ∧ (c' 0).lo = (c' 0).hi
    obtain ⟨_, b, c, d, _⟩ := hne 0 hp0
    rw [b, c, d]; exact hi.bot
  · show (c' 1).index = _ ∧ (c' 1).lo = (c' 1).hi
    obtain ⟨_, b, c, d, _⟩ := hne 1 hp1
    rw [b, c, d]; exact hi.top
  · exact hi.nv
  · intro q q2 hq
    by_cases e : q = p
    · subst e
      show (c' q).index < s.nvars ∧ (c' q).lo ≠ (c' q).hi ∧ ∃ t, Repr c' q t
      refine ⟨by rw [hself]; exact hv, by rw [hself]; exact hlh, _, hrepr⟩
    · show (c' q).index < s.nvars ∧ (c' q).lo ≠ (c' q).hi ∧ ∃ t, Repr c' q t
      obtain ⟨a, b, c, d, _⟩ := hne q e
      rw [b, c, d]
      obtain ⟨h1, h2, t, h3⟩ := hi.node q q2 (a ▸ hq)
      exact ⟨h1, h2, t, h3.ext hext⟩
  · intro a b a2 b2 ha hb
    show (c' a).index = (c' b).index → (c' a).lo = (c' b).lo → (c' a).hi = (c' b).hi → a = b
    by_cases ea : a = p <;> by_cases eb : b = p
    · intros; rw [ea, eb]
    · subst ea
      obtain ⟨b0, b1, b2', b3, _⟩ := hne b eb
      rw [hself, b1, b2', b3]
      intro e1 e2 e3
      exact absurd ⟨e2.symm, e3.symm⟩ (hnew b b2 (b0 ▸ hb) e1.symm)
    · subst eb
      obtain ⟨b0, b1, b2', b3, _⟩ := hne a ea
      rw [hself, b1, b2', b3]
      intro e1 e2 e3
      exact absurd ⟨e2, e3⟩ (hnew a a2 (b0 ▸ ha) e1)
    · obtain ⟨a0, a1, a2', a3, _⟩ := hne a ea
      obtain ⟨b0, b1, b2', b3, _⟩ := hne b eb
      rw [a1, a2', a3, b1, b2', b3]
      exact hi.uniq a b a2 b2 (a0 ▸ ha) (b0 ▸ hb)
  · intro hmd q t hq
    rcases hinv q t hq with ⟨rfl, rfl⟩ | hq
    · exact ⟨fun w hw => hord hmd w (Or.inl hw), fun w hw => hord hmd w (Or.inr hw), hi.ord hmd _ _ hl,
        hi.ord hmd _ _ hh⟩
    · exact hi.ord hmd q t hq
  · intro q t hq
    show t.height ≤ s.rngPos + 1
    rcases hinv q t hq with ⟨rfl, rfl⟩ | hq
    · have := hi.ht _ _ hl
      have := hi.ht _ _ hh
      simp only [Tree.height]; omega
    · have := hi.ht q t hq; omega
  · intro w hw
    have hhash : ∀ q, q ≠ p → 2 ≤ q → (s.cells q).live = true →
        hashCode c' (c' q).lo (c' q).hi = hashCode s.cells (s.cells q).lo (s.cells q).hi := by
      intro q hq h2 hql
      obtain ⟨_, b, c, _⟩ := hne q hq
      have e1 := (hext _ (hi.lo_live h2 hql)).2.2.2.2
      have e2 := (hext _ (hi.hi_live h2 hql)).2.2.2.2
      unfold hashCode
      rw [b, c, e1, e2]
    by_cases e : w = v
    · subst e
      simp only [upd_same]
      have hml := htab.mask_le
      have hfl := htab.free_le
      refine ⟨htab.pow, htab.cap, ?_, ?_, ?_, ?_, ?_⟩
      · have hpS : ¬ (2 ≤ p ∧ (s.cells p).live = true ∧ (s.cells p).index = w) := by simp [pdead]
        have hhp' : hashCode c' (c' p).lo (c' p).hi = hashCode s.cells l h := by
          unfold hashCode
          rw [hself]
          simp only
          rw [(hext _ hll).2.2.2.2, (hext _ hhl).2.2.2.2]
        have h1 := (htab.slots.congr (hsh' := fun q => hashCode c' (c' q).lo (c' q).hi) (fun _ => Iff.rfl)
          (fun q hq => hhash q (by rintro rfl; exact hpS hq) hq.1 hq.2.1)).insert hpS hk hkn (by
            rw [hhp']; exact hkr)
        refine h1.congr ?_ (fun _ _ => rfl)
        intro q
        show (2 ≤ q ∧ (c' q).live = true ∧ (c' q).index = w) ↔ _
        by_cases e : q = p
        · subst e; rw [hself]; simp [p2]
        · obtain ⟨a, _, _, d, _⟩ := hne q e
          rw [a, d]; simp [e]
      · have := countFree_upd (p := p) hk hkn
        have := htab.free
        show (s.tabs w).free - 1 = countFree (upd (s.tabs w).slots k (some p)) ((s.tabs w).mask + 1)
        omega
      · show (s.tabs w).mask + 1 ≤ 2 * ((s.tabs w).free - 1) + 2
        omega
      · exact htab.page
      · intro hne
        have := htab.dense hne
        show (s.tabs w).mask + 1 < 8 * ((s.tabs w).mask + 1 - ((s.tabs w).free - 1))
        omega
    · simp only [upd_ne _ _ e]
      have htw := hi.tab w hw
      refine ⟨htw.pow, htw.cap, ?_, htw.free, htw.fill, htw.page, htw.dense⟩
      refine htw.slots.congr ?_ ?_
      · intro q
        show (2 ≤ q ∧ (c' q).live = true ∧ (c' q).index = w) ↔ _
        by_cases eq : q = p
        · subst eq; rw [hself]; simp [pdead, Ne.symm e]
        · obtain ⟨a, _, _, d, _⟩ := hne q eq
          rw [a, d]
      · rintro q ⟨h2, hql, _⟩
        exact hhash q (by rintro rfl; simp [hql] at pdead) h2 hql
  · refine ⟨ppg, poff, ?_, ?_, ?_, pnd, phw⟩
    · show 2 ≤ s.pool.reserve.2.hw
      have := hi.pool.off2
      rcases phw2 with h | h <;> omega
    · intro q
      show (c' q).live = true ↔ q < s.pool.reserve.2.hw ∧ q ∉ s.pool.reserve.2.avail
      rw [plive q, hlive' q, hi.pool.live q]
    · intro q hq
      have hq' : q ∈ s.pool.avail := pav q hq
      have := hi.pool.avail q hq'
      show 2 ≤ q ∧ q < s.pool.reserve.2.hw
      rcases phw2 with h | h <;> omega
  · exact ⟨hi.memo.pow, hi.memo.mask, fun k hk => (hi.memo.entry k hk).ext hext, fun k hk hr => hi.place_ext hext hk hr⟩
  · have hplt : p < s.pool.reserve.2.hw := ((plive p).2 (Or.inl rfl)).1
    have harc : ∀ q, arcsTo s.cells q s.pool.reserve.2.hw = arcsTo s.cells q s.pool.hw := by
      intro q
      rcases phw2 with h | ⟨h, h'⟩
      · rw [h]
      · rw [h]
        simp only [arcsTo]
        rw [← h', if_neg (by simp [pdead])]
        omega
    constructor
    · intro q hq
      show (c' q).xref = refs q + arcsTo c' q s.pool.reserve.2.hw + _
      rw [arcsTo_insert (c := s.cells) p2 hplt pdead (by rw [hself])
        (fun i hi => ⟨(hne i hi).1, (hne i hi).2.1, (hne i hi).2.2.1⟩), harc, hself]
      simp only
      by_cases e : q = p
      · subst e
        have h0 : refs q = 0 := by
          cases hz : refs q with
          | zero => rfl
          | succ n => have := hi.ref.live q (by omega); simp [this] at pdead
        rw [hself, h0, arcsTo_zero]
        · simp [hlp, hhp]; omega
        · intro i h2 hl'
          constructor
          · intro he; have := hi.lo_live h2 hl'; rw [he, pdead] at this; cases this
          · intro he; have := hi.hi_live h2 hl'; rw [he, pdead] at this; cases this
      · rw [(hne q e).2.2.2.2.2, hi.ref.count q (((hlive' q).1 hq).resolve_left e)]
        push_cast
        by_cases e1 : l = q <;> by_cases e2 : h = q <;> simp [e1, e2] <;> omega
    · intro q hq
      show (c' q).live = true
      exact (hlive' q).2 (Or.inr (hi.ref.live q hq))
  · intro q q2 hq
    show upd s.marks p false q = false
    by_cases e : q = p
    · subst e; simp
    · rw [upd_ne _ _ e]; exact hi.mark q q2 (((hlive' q).1 hq).resolve_left e)
  · show upd s.marks p false 0 = _ ∧ upd s.marks p false 1 = _
    rw [upd_ne _ _ (by omega), upd_ne _ _ (by omega)]; exact hi.smark

end
end LBDD
