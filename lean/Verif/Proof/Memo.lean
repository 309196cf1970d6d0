import Verif.Proof.Find
import Verif.Proof.Rehash
/-! Memo cache: lookups return only stored facts, insertions keep the cache sound. -/
namespace LBDD
section
variable {cfg : Cfg} {md : Md} {refs : Nat → Nat} {s : Mgr}

theorem memo_slot_lt (hm : MemoOk cfg md s) (a : Nat) : a &&& s.memo.mask < s.memo.size := by
  obtain ⟨k, hk⟩ := hm.pow
  rw [and_mask (k := k) a (hm.mask.trans hk), hm.mask]
  exact Nat.mod_lt _ (by rw [hk]; exact Nat.two_pow_pos k)

theorem cacheLookup_ok (hi : Inv cfg md refs s) (f g h : Nat) :
    ∃ o, cacheLookup cfg f g h s = .ok o s ∧
      ∀ r, o = some r → EntryOk cfg md s.cells ⟨some f, some g, h, some r⟩ := by
  unfold cacheLookup
  have hlt := memo_slot_lt hi.memo (cacheHash s.cells f g h)
  have hent := hi.memo.entry _ hlt
  generalize hk : cacheHash s.cells f g h &&& s.memo.mask = k at *
  show ∃ o, M.bind M.get _ s = _ ∧ _
  simp only [M.bind, M.get]
  show ∃ o, M.bind (M.assert cfg.ndebug _) _ s = _ ∧ _
  simp only [M.bind, M.assert, hi.memo.mask, beq_self_eq_true, Bool.or_true, if_true]
  rw [hk, if_neg (by omega)]
  cases hr : (s.memo.entries k).r with
  | none => exact ⟨none, rfl, by simp⟩
  | some r =>
    simp only
    split
    · rename_i hm
      have he : s.memo.entries k = ⟨some f, some g, h, some r⟩ := by
        obtain ⟨h1, h2, h3⟩ := hm
        cases hh : s.memo.entries k
        simp_all
      rw [he] at hent
      obtain ⟨_, _, _, _, tr, _, _, _, _, h5, _⟩ := hent r rfl
      rw [if_neg (by have := hi.xref_nonneg h5; omega)]
      refine ⟨some r, rfl, ?_⟩
      intro r' hr'
      cases hr'
      exact hent
    · exact ⟨none, rfl, by simp⟩

theorem memoMove_all {P : MemoEntry → Prop} (hP : ∀ e : MemoEntry, P e → P { e with r := none })
    {cells : Nat → Cell} {mask k : Nat} {e : Nat → MemoEntry} (h : ∀ i, P (e i)) : ∀ i, P (memoMove cells mask e k i) := by
  intro i
  unfold memoMove
  split
  · simp only
    split
    · unfold upd
      split
      · exact hP _ (h k)
      · split
        · exact h k
        · exact h i
    · exact h i
  · exact h i

theorem memoRehash_all {P : MemoEntry → Prop} (hP : ∀ e : MemoEntry, P e → P { e with r := none })
    {cells : Nat → Cell} {mask : Nat} : ∀ (n : Nat) {e : Nat → MemoEntry}, (∀ i, P (e i)) →
      ∀ i, P ((memoRehash cells mask n e).1 i) := by
  intro n
  induction n with
  | zero => intro e h; exact h
  | succ n ih =>
    intro e h
    exact memoMove_all hP (ih h)

theorem memoDouble_ok (hm : MemoOk cfg md s) :
    (∃ k, (s.memo.double s.cells).size = 2 ^ k) ∧ (s.memo.double s.cells).mask + 1 = (s.memo.double s.cells).size ∧
    (∀ k, k < (s.memo.double s.cells).size → EntryOk cfg md s.cells ((s.memo.double s.cells).entries k)) ∧ Placed s.cells (s.memo.double s.cells) := by
  have hpl : Placed s.cells (s.memo.double s.cells) := Placed.double_place ⟨hm.pow, hm.mask, hm.place⟩
  refine ⟨hpl.pow, hpl.mask, ?_, hpl⟩
  clear hpl
  unfold Memo.double
  split
  · exact hm.entry
  · simp only
    intro i _
    refine memoRehash_all (P := EntryOk cfg md s.cells) ?_ s.memo.size ?_ i
    · intro e _ r hr; cases hr
    · intro j
      split
      · rename_i hj; exact hm.entry j hj
      · intro r hr; cases hr

/-- Replacing the memo cache by another sound one. -/
theorem Inv.setMemo (hi : Inv cfg md refs s) {m : Memo} (hm : MemoOk cfg md { s with memo := m }) :
    Inv cfg md refs { s with memo := m } where
  bot := hi.bot
  top := hi.top
  nv := hi.nv
  node := hi.node
  uniq := hi.uniq
  ord := hi.ord
  ht := hi.ht
  tab := hi.tab
  pool := ⟨hi.pool.pages, hi.pool.off, hi.pool.off2, hi.pool.live, hi.pool.avail, hi.pool.nodup, hi.pool.total⟩
  memo := hm
  ref := ⟨hi.ref.count, hi.ref.live⟩
  mark := hi.mark
  smark := hi.smark

theorem cacheInsert_ok (hi : Inv cfg md refs s) {f g h r : Nat}
    (he : EntryOk cfg md s.cells ⟨some f, some g, h, some r⟩) :
    Spec cfg md refs (cacheInsert cfg f g h r) s (fun _ s' => s'.cells = s.cells) := by
  unfold cacheInsert
  refine Spec.get_bind ?_
  simp only
  -- the cache after the possible growth
  have hm0 : MemoOk cfg md { s with memo := { s.memo with inserts := s.memo.inserts + 1 } } :=
    ⟨hi.memo.pow, hi.memo.mask, hi.memo.entry, hi.memo.place⟩
  generalize hm1 : (if s.memo.threshold ≤ s.memo.inserts + 1 then
    ({ s.memo with inserts := s.memo.inserts + 1 } : Memo).double s.cells
    else { s.memo with inserts := s.memo.inserts + 1 }) = m
  have hm : MemoOk cfg md { s with memo := m } := by
    rw [← hm1]
    split
    · obtain ⟨a, b, c, d⟩ := memoDouble_ok hm0
      exact ⟨a, b, c, d.place⟩
    · exact hm0
  refine Spec.assert_bind (by simpa using hm.mask) ?_
  have hlt := memo_slot_lt hm (cacheHash s.cells f g h)
  simp only at hlt
  rw [if_neg (by omega)]
  refine ⟨⟨.refl _, rfl, Nat.le_refl _⟩, ?_, rfl⟩
  refine hi.setMemo ⟨hm.pow, hm.mask, ?_, ?_⟩
  · intro k hk
    simp only
    by_cases e : k = cacheHash s.cells f g h &&& m.mask
    · rw [e, upd_same]; exact he
    · rw [upd_ne _ _ e]; exact hm.entry k hk
  · intro k hk
    simp only
    by_cases e : k = cacheHash s.cells f g h &&& m.mask
    · rw [e, upd_same]
      intro _
      have hsl := Placed.slot (cells := s.cells) (m := m) ⟨hm.pow, hm.mask, hm.place⟩ (cacheHash s.cells f g h)
      rw [hsl]
      rfl
    · rw [upd_ne _ _ e]; exact hm.place k hk

/-! ### node accessors -/

theorem lowOf_ok {p : Nat} {t : Tree} (h : Repr s.cells p t) (h2 : 2 ≤ p) : lowOf p s = .ok (s.cells p).lo s := by
  obtain ⟨_, _, _, hl, hx, _⟩ := h.inv h2
  unfold lowOf
  rw [M.get_bind_apply]
  rw [if_neg (by simp [hl]; omega)]
  rfl

theorem highOf_ok {p : Nat} {t : Tree} (h : Repr s.cells p t) (h2 : 2 ≤ p) : highOf p s = .ok (s.cells p).hi s := by
  obtain ⟨_, _, _, hl, hx, _⟩ := h.inv h2
  unfold highOf
  rw [M.get_bind_apply]
  rw [if_neg (by simp [hl]; omega)]
  rfl

theorem varOf_ok (hi : Inv cfg md refs s) {p : Nat} {t : Tree} (h : Repr s.cells p t) (h2 : 2 ≤ p) :
    varOf p s = .ok (s.cells p).index s := by
  obtain ⟨_, _, _, hl, hx, _⟩ := h.inv h2
  unfold varOf
  rw [M.get_bind_apply, if_neg (by have := (hi.node p h2 hl).1; omega)]
  rfl

theorem isBot_ok (hi : Inv cfg md refs s) {p : Nat} {t : Tree} (h : Repr s.cells p t) :
    isBot cfg p s = .ok (decide (p = 0)) s := by
  have key : ((s.cells p).index == topsinkIndex || (s.cells p).index == botsinkIndex) = ((s.cells p).lo == (s.cells p).hi) ∧
      ((s.cells p).index == botsinkIndex) = decide (p = 0) := by
    cases h with
    | bot => simp [hi.bot]
    | top => simp [hi.top, topsinkIndex, botsinkIndex]
    | node h2 hl hx _ _ =>
      have hne := (hi.node _ h2 hl).2.1
      have h0 : ¬ p = 0 := by omega
      have a : (s.cells p).index ≠ topsinkIndex := by omega
      have b : (s.cells p).index ≠ botsinkIndex := by unfold topsinkIndex botsinkIndex at *; omega
      rw [beq_eq_false_iff_ne.2 a, beq_eq_false_iff_ne.2 b, beq_eq_false_iff_ne.2 hne]
      simp [h0]
  unfold isBot
  rw [M.get_bind_apply, M.assert_bind_apply (by simp only [key.1, beq_self_eq_true])]
  rw [key.2]; rfl

theorem isTop_ok (hi : Inv cfg md refs s) {p : Nat} {t : Tree} (h : Repr s.cells p t) :
    isTop cfg p s = .ok (decide (p = 1)) s := by
  have key : ((s.cells p).index == topsinkIndex || (s.cells p).index == botsinkIndex) = ((s.cells p).lo == (s.cells p).hi) ∧
      ((s.cells p).index == topsinkIndex) = decide (p = 1) := by
    cases h with
    | bot => simp [hi.bot, topsinkIndex, botsinkIndex]
    | top => simp [hi.top]
    | node h2 hl hx _ _ =>
      have hne := (hi.node _ h2 hl).2.1
      have h0 : ¬ p = 1 := by omega
      have a : (s.cells p).index ≠ topsinkIndex := by omega
      have b : (s.cells p).index ≠ botsinkIndex := by unfold topsinkIndex botsinkIndex at *; omega
      rw [beq_eq_false_iff_ne.2 a, beq_eq_false_iff_ne.2 b, beq_eq_false_iff_ne.2 hne]
      simp [h0]
  unfold isTop
  rw [M.get_bind_apply, M.assert_bind_apply (by simp only [key.1, beq_self_eq_true])]
  rw [key.2]; rfl

end
end LBDD
