import Verif.Proof.Table
/-! Doubling of the memo cache: where the entries go. -/
namespace LBDD

/-- Contents of slot `i` after the first `j` old slots were rehashed from size `N` to size `2N`. -/
def moved (cells : Nat → Cell) (N : Nat) (e0 : Nat → MemoEntry) (j i : Nat) : MemoEntry :=
  if i < N then
    if i < j ∧ (e0 i).r.isSome = true ∧ entryHash cells (e0 i) % (2 * N) ≠ i then { e0 i with r := none } else e0 i
  else if i - N < j ∧ (e0 (i - N)).r.isSome = true ∧ entryHash cells (e0 (i - N)) % (2 * N) = i then e0 (i - N) else emptyEntry

theorem memoRehash_moved {cells : Nat → Cell} {N k : Nat} (hN : N = 2 ^ k) {e0 : Nat → MemoEntry}
    (hplace : ∀ i, i < N → (e0 i).r.isSome = true → entryHash cells (e0 i) % N = i)
    (hhigh : ∀ i, N ≤ i → e0 i = emptyEntry) :
    ∀ j, j ≤ N → ∀ i, i < 2 * N → (memoRehash cells (2 * N - 1) j e0).1 i = moved cells N e0 j i := by
  have hpos : 0 < N := by rw [hN]; exact Nat.two_pow_pos k
  have hmask : ∀ x, x &&& (2 * N - 1) = x % (2 * N) := by
    intro x
    rw [and_mask (k := k + 1) x (by rw [Nat.pow_succ]; omega)]
    congr 1; omega
  intro j
  induction j with
  | zero =>
    intro _ i hi
    show e0 i = _
    unfold moved
    split
    · simp
    · rename_i h
      simp [hhigh i (by omega)]
  | succ j ih =>
    intro hj i hi
    have ihj := ih (by omega)
    show memoMove cells (2 * N - 1) (memoRehash cells (2 * N - 1) j e0).1 j i = _
    have ej : (memoRehash cells (2 * N - 1) j e0).1 j = e0 j := by
      rw [ihj j (by omega)]
      unfold moved
      rw [if_pos (by omega), if_neg (by omega)]
    generalize hgen : (memoRehash cells (2 * N - 1) j e0).1 = E at *
    unfold memoMove
    rw [ej]
    by_cases hr : (e0 j).r.isSome = true
    · rw [if_pos hr]
      simp only
      rw [hmask]
      have hpl := hplace j (by omega) hr
      have hlt : entryHash cells (e0 j) % (2 * N) < 2 * N := Nat.mod_lt _ (by omega)
      have hdest : entryHash cells (e0 j) % (2 * N) = j ∨ entryHash cells (e0 j) % (2 * N) = j + N := by
        have h1 : entryHash cells (e0 j) % (2 * N) % N = j := by
          rw [Nat.mod_mod_of_dvd _ ⟨2, by omega⟩]; exact hpl
        by_cases h : entryHash cells (e0 j) % (2 * N) < N
        · rw [Nat.mod_eq_of_lt h] at h1; exact Or.inl h1
        · right
          rw [Nat.mod_eq_sub_mod (by omega), Nat.mod_eq_of_lt (by omega)] at h1
          omega
      rcases hdest with hd | hd
      · -- stays in place
        rw [hd, ej]
        simp only [ne_eq, not_true_eq_false, if_false]
        rw [ihj i hi]
        unfold moved
        by_cases h : i < N
        · rw [if_pos h, if_pos h]
          by_cases hij : i = j
          · subst hij
            rw [if_neg (by omega), if_neg (by rw [hd]; simp)]
          · have e : (i < j ∧ (e0 i).r.isSome = true ∧ entryHash cells (e0 i) % (2 * N) ≠ i) =
              (i < j + 1 ∧ (e0 i).r.isSome = true ∧ entryHash cells (e0 i) % (2 * N) ≠ i) := by
              have : (i < j) = (i < j + 1) := propext ⟨fun h => by omega, fun h => by omega⟩
              rw [this]
            simp only [e]
        · rw [if_neg h, if_neg h]
          by_cases hij : i - N = j
          · rw [if_neg (by omega), if_neg (by rw [hij]; omega)]
          · have e : (i - N < j) = (i - N < j + 1) := propext ⟨fun h => by omega, fun h => by omega⟩
            simp only [e]
      · -- moves to the upper half
        rw [hd]
        have eup : E (j + N) = emptyEntry := by
          rw [ihj (j + N) (by omega)]
          unfold moved
          rw [if_neg (by omega), if_neg (by omega)]
        have hne : E (j + N) ≠ e0 j := by
          rw [eup]; intro h; rw [← h] at hr; simp [emptyEntry] at hr
        rw [if_pos hne]
        by_cases hij : i = j
        · subst hij
          rw [upd_same]
          unfold moved
          rw [if_pos (by omega), if_pos ⟨by omega, hr, by omega⟩]
        · rw [upd_ne _ _ hij]
          by_cases hij2 : i = j + N
          · subst hij2
            rw [upd_same]
            unfold moved
            rw [if_neg (by omega), Nat.add_sub_cancel, if_pos ⟨by omega, hr, hd⟩]
          · rw [upd_ne _ _ hij2, ihj i hi]
            unfold moved
            by_cases h : i < N
            · rw [if_pos h, if_pos h]
              have e : (i < j) = (i < j + 1) := propext ⟨fun h => by omega, fun h => by omega⟩
              simp only [e]
            · rw [if_neg h, if_neg h]
              have e : (i - N < j) = (i - N < j + 1) := propext ⟨fun h => by omega, fun h => by omega⟩
              simp only [e]
    · rw [if_neg hr, ihj i hi]
      unfold moved
      by_cases h : i < N
      · rw [if_pos h, if_pos h]
        by_cases hij : i = j
        · subst hij
          rw [if_neg (by omega), if_neg (fun h => hr h.2.1)]
        · have e : (i < j) = (i < j + 1) := propext ⟨fun h => by omega, fun h => by omega⟩
          simp only [e]
      · rw [if_neg h, if_neg h]
        by_cases hij : i - N = j
        · rw [if_neg (by omega), if_neg (by rw [hij]; exact fun h => hr h.2.1)]
        · have e : (i - N < j) = (i - N < j + 1) := propext ⟨fun h => by omega, fun h => by omega⟩
          simp only [e]

/-- What a lookup of the key `(f, g, h)` sees. -/
def Memo.find (cells : Nat → Cell) (m : Memo) (f g h : Nat) : Option Nat :=
  let e := m.entries (cacheHash cells f g h % m.size)
  if e.f = some f ∧ e.g = some g ∧ e.h = h then e.r else none

theorem find_iff {cells : Nat → Cell} {m : Memo} {f g h r : Nat} : m.find cells f g h = some r ↔
    m.entries (cacheHash cells f g h % m.size) = ⟨some f, some g, h, some r⟩ := by
  unfold Memo.find
  simp only
  generalize m.entries (cacheHash cells f g h % m.size) = e
  obtain ⟨a, b, c, d⟩ := e
  simp only [MemoEntry.mk.injEq]
  constructor
  · intro h
    split at h
    · rename_i hh; exact ⟨hh.1, hh.2.1, hh.2.2, h⟩
    · cases h
  · rintro ⟨h1, h2, h3, h4⟩
    rw [if_pos ⟨h1, h2, h3⟩]; exact h4

/-- The cache has a power of two of slots, and every entry with a result is in the slot of its key. -/
structure Placed (cells : Nat → Cell) (m : Memo) : Prop where
  pow : ∃ k, m.size = 2 ^ k
  mask : m.mask + 1 = m.size
  place : ∀ k, k < m.size → (m.entries k).r.isSome = true → entryHash cells (m.entries k) % m.size = k

theorem Placed.slot {cells : Nat → Cell} {m : Memo} (hm : Placed cells m) (x : Nat) : x &&& m.mask = x % m.size := by
  obtain ⟨k, hk⟩ := hm.pow
  rw [and_mask (k := k) x (by rw [hm.mask, hk]), hm.mask]

theorem Placed.double_place {cells : Nat → Cell} {m : Memo} (hm : Placed cells m) : Placed cells (m.double cells) := by
  unfold Memo.double
  split
  · exact hm
  · obtain ⟨k, hk⟩ := hm.pow
    have hpos : 0 < m.size := by rw [hk]; exact Nat.two_pow_pos k
    simp only
    generalize he0 : (fun k => if k < m.size then m.entries k else emptyEntry) = e0
    have ent : ∀ i, i < m.size → e0 i = m.entries i := by intro i hi; rw [← he0]; simp [hi]
    have hplace : ∀ i, i < m.size → (e0 i).r.isSome = true → entryHash cells (e0 i) % m.size = i := by
      intro i hi hr
      rw [ent i hi] at hr ⊢
      exact hm.place i hi hr
    have hhigh : ∀ i, m.size ≤ i → e0 i = emptyEntry := by intro i hi; rw [← he0]; simp [Nat.not_lt.2 hi]
    have key := memoRehash_moved hk hplace hhigh m.size (Nat.le_refl _)
    generalize hE : (memoRehash cells (2 * m.size - 1) m.size e0) = E at *
    obtain ⟨E1, occ⟩ := E
    simp only at key ⊢
    refine ⟨⟨k + 1, by show 2 * m.size = _; rw [hk, Nat.pow_succ]; omega⟩, by show 2 * m.size - 1 + 1 = 2 * m.size; omega, ?_⟩
    intro i hi hr
    change (E1 i).r.isSome = true at hr
    show entryHash cells (E1 i) % (2 * m.size) = i
    rw [key i hi] at hr ⊢
    unfold moved at hr ⊢
    by_cases h : i < m.size
    · rw [if_pos h] at hr ⊢
      by_cases h2 : i < m.size ∧ (e0 i).r.isSome = true ∧ entryHash cells (e0 i) % (2 * m.size) ≠ i
      · rw [if_pos h2] at hr; simp at hr
      · rw [if_neg h2] at hr ⊢
        exact Classical.byContradiction fun hc => h2 ⟨h, hr, hc⟩
    · rw [if_neg h] at hr ⊢
      by_cases h2 : i - m.size < m.size ∧ (e0 (i - m.size)).r.isSome = true ∧ entryHash cells (e0 (i - m.size)) % (2 * m.size) = i
      · rw [if_pos h2]
        exact h2.2.2
      · rw [if_neg h2] at hr; simp [emptyEntry] at hr

/-- Doubling loses no entry. -/
theorem Placed.double_find {cells : Nat → Cell} {m : Memo} (hm : Placed cells m) {f g h r : Nat} (hf : m.find cells f g h = some r) :
    (m.double cells).find cells f g h = some r := by
  unfold Memo.double
  split
  · exact hf
  · obtain ⟨k, hk⟩ := hm.pow
    have hpos : 0 < m.size := by rw [hk]; exact Nat.two_pow_pos k
    simp only
    generalize he0 : (fun k => if k < m.size then m.entries k else emptyEntry) = e0
    have ent : ∀ i, i < m.size → e0 i = m.entries i := by intro i hi; rw [← he0]; simp [hi]
    have hplace : ∀ i, i < m.size → (e0 i).r.isSome = true → entryHash cells (e0 i) % m.size = i := by
      intro i hi hr
      rw [ent i hi] at hr ⊢
      exact hm.place i hi hr
    have hhigh : ∀ i, m.size ≤ i → e0 i = emptyEntry := by intro i hi; rw [← he0]; simp [Nat.not_lt.2 hi]
    have key := memoRehash_moved hk hplace hhigh m.size (Nat.le_refl _)
    generalize hE : (memoRehash cells (2 * m.size - 1) m.size e0) = E at *
    obtain ⟨E1, occ⟩ := E
    simp only at key ⊢
    rw [find_iff] at hf ⊢
    simp only
    have hi : cacheHash cells f g h % m.size < m.size := Nat.mod_lt _ hpos
    rw [← ent _ hi] at hf
    have hlt : cacheHash cells f g h % (2 * m.size) < 2 * m.size := Nat.mod_lt _ (by omega)
    have hmm : cacheHash cells f g h % (2 * m.size) % m.size = cacheHash cells f g h % m.size := Nat.mod_mod_of_dvd _ ⟨2, by omega⟩
    have hent : entryHash cells (e0 (cacheHash cells f g h % m.size)) = cacheHash cells f g h := by rw [hf]; rfl
    rw [key _ hlt]
    unfold moved
    by_cases hj : cacheHash cells f g h % (2 * m.size) < m.size
    · rw [Nat.mod_eq_of_lt hj] at hmm
      rw [if_pos hj, hmm, if_neg]
      · exact hf
      · rintro ⟨_, _, h3⟩; rw [hent] at h3; exact h3 hmm
    · rw [Nat.mod_eq_sub_mod (by omega), Nat.mod_eq_of_lt (by omega)] at hmm
      rw [if_neg hj, hmm, if_pos]
      · exact hf
      · exact ⟨by omega, by rw [hf]; rfl, by rw [hent]⟩

end LBDD
